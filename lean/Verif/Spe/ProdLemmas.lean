import Verif.Spe.LeafLemmas
import Verif.Dnf.NumLemmas
import Verif.Events.Props

set_option linter.all false

/-!
# Products of distributions (helper lemmas)
-/

namespace Sppl
open Classical MeasureTheory
open scoped ENNReal

/-- Membership in the set depends on the variables in `S` only. -/
def DepOn (S : Finset String) (B : Set Asg) : Prop := ∀ ω ω' : Asg, (∀ s ∈ S, ω s = ω' s) → (ω ∈ B ↔ ω' ∈ B)

theorem measurable_mergeAsg (S : Finset String) : Measurable (mergeAsg S) := by
  refine measurable_pi_iff.2 (fun s => ?_)
  unfold mergeAsg
  by_cases h : s ∈ S
  · simp only [h, if_true]; exact (measurable_pi_apply s).comp measurable_fst
  · simp only [h, if_false]; exact (measurable_pi_apply s).comp measurable_snd

theorem indep_prob : ∀ {l : List (Finset String × Measure Asg)}, (∀ q ∈ l, IsProbabilityMeasure q.2) → IsProbabilityMeasure (indep l)
  | [], _ => by unfold indep; infer_instance
  | (S, m) :: l, h => by
    unfold indep
    have h1 : IsProbabilityMeasure m := h (S, m) (by simp)
    have h2 := indep_prob (l := l) (fun q hq => h q (by simp [hq]))
    exact Measure.isProbabilityMeasure_map (measurable_mergeAsg S).aemeasurable

theorem measurable_all {Bs : List (Set Asg)} (h : ∀ B ∈ Bs, MeasurableSet B) : MeasurableSet {ω | ∀ B ∈ Bs, ω ∈ B} := by
  induction Bs with
  | nil => simp
  | cons B Bs ih =>
    have : {ω | ∀ B' ∈ B :: Bs, ω ∈ B'} = B ∩ {ω | ∀ B' ∈ Bs, ω ∈ B'} := by ext ω; simp
    rw [this]
    exact (h B (by simp)).inter (ih (fun B' hB' => h B' (by simp [hB'])))

/-- Independence. -/
theorem indep_all : ∀ {l : List (Finset String × Measure Asg)} {Bs : List (Set Asg)}, (∀ q ∈ l, IsProbabilityMeasure q.2) →
    (l.map Prod.fst).Pairwise Disjoint → List.Forall₂ (fun q B => MeasurableSet B ∧ DepOn q.1 B) l Bs →
    (indep l) {ω | ∀ B ∈ Bs, ω ∈ B} = (List.zipWith (fun q B => q.2 B) l Bs).prod
  | [], _, _, _, .nil => by simp [indep]
  | (S, m) :: l, B :: Bs, hp, hd, .cons ⟨h1, h2⟩ h3 => by
    have hm : IsProbabilityMeasure m := hp (S, m) (by simp)
    have hl : ∀ q ∈ l, IsProbabilityMeasure q.2 := fun q hq => hp q (by simp [hq])
    have hi := indep_prob hl
    rw [List.map_cons, List.pairwise_cons] at hd
    have hmeas : ∀ B ∈ Bs, MeasurableSet B := fun B hB => by
      obtain ⟨q, -, h, -⟩ := forall₂_mem_right h3 hB; exact h
    have hall : ∀ B' ∈ B :: Bs, MeasurableSet B' := by
      intro B' hB'
      rcases List.mem_cons.1 hB' with rfl | hB'
      · exact h1
      · exact hmeas B' hB'
    rw [indep, Measure.map_apply (measurable_mergeAsg S) (measurable_all hall)]
    have hpre : mergeAsg S ⁻¹' {ω | ∀ B' ∈ B :: Bs, ω ∈ B'} = B ×ˢ {ω | ∀ B' ∈ Bs, ω ∈ B'} := by
      ext ⟨a, b⟩
      simp only [Set.mem_preimage, Set.mem_setOf_eq, List.mem_cons, forall_eq_or_imp, Set.mem_prod]
      refine and_congr ?_ ?_
      · exact h2 _ _ (fun s hs => by simp [mergeAsg, hs])
      · refine forall₂_congr (fun B' hB' => ?_)
        obtain ⟨q, hq, -, h⟩ := forall₂_mem_right h3 hB'
        have hdis := hd.1 q.1 (List.mem_map.2 ⟨q, hq, rfl⟩)
        refine h _ _ (fun s hs => ?_)
        simp [mergeAsg, Finset.disjoint_right.1 hdis hs]
    rw [hpre, Measure.prod_prod, indep_all hl hd.2 h3]
    simp

theorem indep_real {l : List (Finset String × Measure Asg)} {Bs : List (Set Asg)} (hp : ∀ q ∈ l, IsProbabilityMeasure q.2)
    (hd : (l.map Prod.fst).Pairwise Disjoint) (hB : List.Forall₂ (fun q B => MeasurableSet B ∧ DepOn q.1 B) l Bs) :
    (indep l).real {ω | ∀ B ∈ Bs, ω ∈ B} = (List.zipWith (fun q B => q.2.real B) l Bs).prod := by
  rw [measureReal_def, indep_all hp hd hB]
  have : ∀ L : List ℝ≥0∞, L.prod.toReal = (L.map ENNReal.toReal).prod := by
    intro L
    induction L with
    | nil => simp
    | cons a L ih => simp [ENNReal.toReal_mul, ih]
  rw [this, List.map_zipWith]
  rfl

/-! ## Events about one variable -/

/-- An event about the plain variable `k`, without string comparisons if `k` is in `A`. -/
structure EvK (A : String → Prop) (k : String) (e : Ev) : Prop where
  valid : e.Valid
  vars : e.All (fun l => l.basic? = some (.id k))
  num : e.All (NumOn A)

variable {A : String → Prop} {c : Ctx}

theorem EvK.mono {A' : String → Prop} {k : String} {e : Ev} (h : EvK A k e) (hA : ∀ s, A' s → A s) : EvK A' k e :=
  ⟨h.valid, h.vars, h.num.mono (fun _ _ _ hl h1 s hs h2 => hl h1 s hs (hA s h2))⟩

theorem EvK.symbols {k : String} {e : Ev} (h : EvK A k e) : e.symbols = {k} := by
  apply Finset.Subset.antisymm
  · rw [Ev.symbols_all]
    refine h.vars.mono ?_
    intro l t _ hl
    rw [symbols_of_basic hl]; simp [Tr.symbols]
  · obtain ⟨l, t, -, h1, h2⟩ := Ev.exists_lit e h.valid h.vars
    rw [symbols_of_basic h1] at h2
    simpa [Tr.symbols] using h2

theorem EvK.made {k : String} {e : Ev} (h : EvK A k e) : e.Made c ∧ e.All NomId ∧ ∀ ω, e.Regular ω :=
  vars_made (A := {k}) h.valid (h.vars.mono (fun l t _ hl => ⟨k, by simp, hl⟩))

theorem depOn_holds {S : Finset String} {e : Ev} (hs : e.SymOk) (h : e.symbols ⊆ S) : DepOn S e.set := by
  intro ω ω' hω
  have := (eval_congr (ω := ω) (ω' := ω')).2 e hs (fun s hs => hω s (h hs))
  show e.holds ω ↔ e.holds ω'
  unfold Ev.holds
  rw [this]

theorem EvK.depOn {k : String} {e : Ev} (h : EvK A k e) {S : Finset String} (hk : k ∈ S) : DepOn S e.set :=
  depOn_holds ((Made.symOk ctx0).2 e (h.made (c := ctx0)).1) (by rw [h.symbols]; simpa using hk)

theorem EvK.land {k : String} {e f g : Ev} (he : EvK A k e) (hf : EvK A k f) (h : e.land c f = .ok g) :
    EvK A k g ∧ ∀ ω, g.holds ω ↔ e.holds ω ∧ f.holds ω := by
  have h1 := Ev.land_spec he.valid hf.valid h
  refine ⟨⟨h1.1, ?_, land_num he.valid hf.valid he.num hf.num h⟩, h1.2⟩
  refine Ev.land_all ?_ he.vars hf.vars h
  intro e f g h1 _ h
  obtain ⟨t, r, h2, -, -, h4, -⟩ := Ev.simplify_some h
  rw [h1] at h2; cases h2; exact h4

/-! ## Clauses -/

/-- A clause under construction. -/
structure ClauseInv (A : String → Prop) (m : Clause String) : Prop where
  nodup : (m.map Prod.fst).Nodup
  ev : ∀ p ∈ m, EvK A p.1 p.2

theorem ClauseInv.addAnd {k : String} {e : Ev} {m m' : Clause String} (hm : ClauseInv A m) (he : EvK A k e) (h : Clause.addAnd c k e m = .ok m') :
    ClauseInv A m' ∧ (∀ ω, (∀ p ∈ m', p.2.holds ω) ↔ (∀ p ∈ m, p.2.holds ω) ∧ e.holds ω) ∧
      ∀ s, s ∈ m'.map Prod.fst ↔ s ∈ m.map Prod.fst ∨ s = k := by
  rcases Clause.addAnd_ok h with ⟨h1, rfl⟩ | ⟨a, f, b, g, rfl, h1, rfl⟩
  · refine ⟨⟨?_, ?_⟩, ?_, ?_⟩
    · rw [List.map_append, List.nodup_append]
      refine ⟨hm.nodup, by simp, ?_⟩
      intro x hx y hy
      simp at hy; subst hy
      rintro rfl; exact h1 hx
    · intro p hp
      rcases List.mem_append.1 hp with hp | hp
      · exact hm.ev p hp
      · rw [List.mem_singleton.1 hp]; exact he
    · intro ω
      simp only [List.mem_append, List.mem_singleton]
      constructor
      · exact fun h => ⟨fun p hp => h p (.inl hp), h _ (.inr rfl)⟩
      · rintro ⟨h1, h2⟩ p (hp | rfl)
        · exact h1 p hp
        · exact h2
    · intro s; simp
  · have hf : EvK A k f := hm.ev (k, f) (by simp)
    obtain ⟨hg, hg'⟩ := hf.land he h1
    refine ⟨⟨?_, ?_⟩, ?_, ?_⟩
    · have := hm.nodup; simpa using this
    · intro p hp
      simp only [List.mem_append, List.mem_cons] at hp
      rcases hp with hp | rfl | hp
      · exact hm.ev p (by simp [hp])
      · exact hg
      · exact hm.ev p (by simp [hp])
    · intro ω
      simp only [List.mem_append, List.mem_cons]
      constructor
      · intro h
        have h2 := (hg' ω).1 (h (k, g) (by simp))
        refine ⟨?_, h2.2⟩
        rintro p (hp | rfl | hp)
        · exact h p (.inl hp)
        · exact h2.1
        · exact h p (.inr (.inr hp))
      · rintro ⟨h, h2⟩ p (hp | rfl | hp)
        · exact h p (.inl hp)
        · exact (hg' ω).2 ⟨h (k, f) (.inr (.inl rfl)), h2⟩
        · exact h p (.inr (.inr hp))
    · intro s
      simp only [List.map_append, List.map_cons, List.mem_append, List.mem_cons]
      tauto

theorem conjClauseLoop_ok {syms : List (Finset String)} {key : ℕ} : ∀ (m : Clause String) {acc acc' : Clause String}, ClauseInv A acc →
    (∀ p ∈ m, EvK A p.1 p.2) → conjClauseLoop c syms key acc m = .ok acc' →
    ClauseInv A acc' ∧ (∀ ω, (∀ p ∈ acc', p.2.holds ω) ↔ (∀ p ∈ acc, p.2.holds ω) ∧ ∀ p ∈ m, lookupChild syms p.1 = .ok key → p.2.holds ω) ∧
      (∀ s, s ∈ acc'.map Prod.fst ↔ s ∈ acc.map Prod.fst ∨ (s ∈ m.map Prod.fst ∧ lookupChild syms s = .ok key)) ∧
      ∀ p ∈ m, ∃ i, lookupChild syms p.1 = .ok i
  | [], acc, acc', h1, h2, h => by
    simp [conjClauseLoop, pure, Except.pure] at h; subst h; exact ⟨h1, by simp, by simp, by simp⟩
  | p :: m, acc, acc', h1, h2, h => by
    simp only [conjClauseLoop, List.foldlM_cons, bind, Except.bind] at h
    split at h; · cases h
    rename_i acc1 hacc1
    split at hacc1; · cases hacc1
    rename_i i hi
    have hrec : conjClauseLoop c syms key acc1 m = .ok acc' := by simpa [conjClauseLoop, bind, Except.bind] using h
    have h2' : ∀ p ∈ m, EvK A p.1 p.2 := fun p hp => h2 p (by simp [hp])
    split at hacc1
    · rename_i hik
      subst hik
      obtain ⟨a1, a2, a3⟩ := h1.addAnd (h2 p (by simp)) hacc1
      obtain ⟨b1, b2, b3, b4⟩ := conjClauseLoop_ok m a1 h2' hrec
      refine ⟨b1, fun ω => ?_, fun s => ?_, ?_⟩
      · rw [b2, a2]; simp [hi, and_assoc]
      · rw [b3, a3]
        simp only [List.map_cons, List.mem_cons]
        constructor
        · rintro ((h | rfl) | ⟨h, h'⟩)
          · exact .inl h
          · exact .inr ⟨.inl rfl, hi⟩
          · exact .inr ⟨.inr h, h'⟩
        · rintro (h | ⟨rfl | h, h'⟩)
          · exact .inl (.inl h)
          · exact .inl (.inr rfl)
          · exact .inr ⟨h, h'⟩
      · intro q hq
        rcases List.mem_cons.1 hq with rfl | hq
        · exact ⟨_, hi⟩
        · exact b4 q hq
    · rename_i hik
      cases hacc1
      obtain ⟨b1, b2, b3, b4⟩ := conjClauseLoop_ok m h1 h2' hrec
      refine ⟨b1, fun ω => ?_, fun s => ?_, ?_⟩
      · rw [b2]; simp [hi, hik]
      · rw [b3]
        simp only [List.map_cons, List.mem_cons]
        constructor
        · rintro (h | ⟨h, h'⟩)
          · exact .inl h
          · exact .inr ⟨.inr h, h'⟩
        · rintro (h | ⟨rfl | h, h'⟩)
          · exact .inl h
          · rw [hi] at h'; cases h'; exact absurd rfl hik
          · exact .inr ⟨h, h'⟩
      · intro q hq
        rcases List.mem_cons.1 hq with rfl | hq
        · exact ⟨_, hi⟩
        · exact b4 q hq

theorem conjClause_ok {syms : List (Finset String)} {key : ℕ} {ms : List (Clause String)} (hms : ∀ m ∈ ms, ∀ p ∈ m, EvK A p.1 p.2)
    {cl : Clause String} (h : conjClause c syms key ms = .ok cl) :
    ClauseInv A cl ∧ (∀ ω, (∀ p ∈ cl, p.2.holds ω) ↔ ∀ m ∈ ms, ∀ p ∈ m, lookupChild syms p.1 = .ok key → p.2.holds ω) ∧
      (∀ s, s ∈ cl.map Prod.fst ↔ ∃ m ∈ ms, s ∈ m.map Prod.fst ∧ lookupChild syms s = .ok key) := by
  have key : ∀ (ms : List (Clause String)), (∀ m ∈ ms, ∀ p ∈ m, EvK A p.1 p.2) → ∀ (acc : Clause String), ClauseInv A acc → ∀ {cl},
      ms.foldlM (fun acc m => conjClauseLoop c syms key acc m) acc = .ok cl →
      ClauseInv A cl ∧ (∀ ω, (∀ p ∈ cl, p.2.holds ω) ↔ (∀ p ∈ acc, p.2.holds ω) ∧ ∀ m ∈ ms, ∀ p ∈ m, lookupChild syms p.1 = .ok key → p.2.holds ω) ∧
      (∀ s, s ∈ cl.map Prod.fst ↔ s ∈ acc.map Prod.fst ∨ ∃ m ∈ ms, s ∈ m.map Prod.fst ∧ lookupChild syms s = .ok key) := by
    intro ms
    induction ms with
    | nil => intro _ acc ha cl h; simp [pure, Except.pure] at h; subst h; exact ⟨ha, by simp, by simp⟩
    | cons m ms ih =>
      intro hms acc ha cl h
      simp only [List.foldlM_cons, bind, Except.bind] at h
      split at h; · cases h
      rename_i acc1 hacc1
      obtain ⟨a1, a2, a3, -⟩ := conjClauseLoop_ok m ha (hms m (by simp)) hacc1
      obtain ⟨b1, b2, b3⟩ := ih (fun m hm => hms m (by simp [hm])) acc1 a1 h
      refine ⟨b1, fun ω => ?_, fun s => ?_⟩
      · rw [b2, a2]; simp [and_assoc]
      · rw [b3, a3]; simp [or_assoc]
  obtain ⟨h1, h2, h3⟩ := key ms hms [] ⟨by simp, by simp⟩ h
  exact ⟨h1, by simpa using h2, by simpa using h3⟩

/-! ## Conjunctions of clauses in a product -/

theorem lookupChild_ok {syms : List (Finset String)} {s : String} {i : ℕ} (h : lookupChild syms s = .ok i) :
    ∃ hi : i < syms.length, s ∈ syms[i] := by
  unfold lookupChild at h
  split at h
  · rename_i j hj
    cases h
    obtain ⟨h1, h2, -⟩ := List.findIdx?_eq_some_iff_getElem.1 hj
    exact ⟨h1, by simpa using h2⟩
  · cases h

theorem lookupChild_eq {syms : List (Finset String)} (hd : syms.Pairwise Disjoint) {s : String} {i j : ℕ} (h : lookupChild syms s = .ok i)
    (hj : j < syms.length) (hs : s ∈ syms[j]) : i = j := by
  obtain ⟨hi, hs'⟩ := lookupChild_ok h
  rw [List.pairwise_iff_getElem] at hd
  rcases lt_trichotomy i j with h1 | h1 | h1
  · exact absurd hs (Finset.disjoint_left.1 (hd i j hi hj h1) hs')
  · exact h1
  · exact absurd hs' (Finset.disjoint_left.1 (hd j i hj hi h1) hs)

theorem prod_getD (L : List ℝ) : L.prod = ∏ i ∈ Finset.range L.length, L.getD i 1 := by
  induction L with
  | nil => simp
  | cons a L ih => rw [List.prod_cons, ih, List.length_cons, Finset.prod_range_succ']; simp [mul_comm]

/-- The assignments where the events about the variables in `S` hold. -/
def onSyms (ms : List (Clause String)) (S : Finset String) : Set Asg := {ω | ∀ m ∈ ms, ∀ p ∈ m, p.1 ∈ S → p.2.holds ω}

theorem measurable_onSyms (ms : List (Clause String)) (S : Finset String) : MeasurableSet (onSyms ms S) := by
  have : onSyms ms S = {ω | ∀ B ∈ (ms.flatMap id).filterMap (fun p => if p.1 ∈ S then some p.2.set else none), ω ∈ B} := by
    ext ω
    simp only [onSyms, Set.mem_setOf_eq, List.mem_filterMap, List.mem_flatMap, id, forall_exists_index, and_imp]
    constructor
    · intro h B p m hm hp hB
      split at hB
      · cases hB; exact h m hm p hp (by assumption)
      · cases hB
    · intro h m hm p hp hpS
      exact h p.2.set p m hm hp (by simp [hpS])
  rw [this]
  refine measurable_all ?_
  intro B hB
  obtain ⟨p, -, hp⟩ := List.mem_filterMap.1 hB
  split at hp
  · cases hp; exact p.2.measurable_set
  · cases hp

theorem conjProb_ok {syms : List (Finset String)} {dens : List (Measure Asg)} {fs : List (Factor → Res ℝ)} (hd : syms.Pairwise Disjoint)
    (hl : syms.length = dens.length) (hp : ∀ m ∈ dens, IsProbabilityMeasure m)
    {ms : List (Clause String)} (hms : ∀ m ∈ ms, ∀ p ∈ m, EvK A p.1 p.2)
    (hf : ∀ i (hi : i < syms.length) (hi' : i < dens.length) f, fs[i]? = some f → ∀ cl p, cl ≠ [] → ClauseInv A cl → (∀ q ∈ cl, q.1 ∈ syms[i]) →
      f [cl] = .ok p → p = dens[i].real {ω | ∀ q ∈ cl, q.2.holds ω})
    {p : ℝ} (h : conjProb c syms fs ms = .ok p) : p = (indep (syms.zip dens)).real {ω | ∀ m ∈ ms, ∀ p ∈ m, p.2.holds ω} := by
  unfold conjProb conjKeys at h
  simp only [bind, Except.bind] at h
  split at h; · cases h
  rename_i ks hks
  split at hks; · cases hks
  rename_i ks0 hks0
  cases hks
  split at h; · cases h
  rename_i ps hps
  cases h
  have hlook : ∀ m ∈ ms, ∀ p ∈ m, ∃ i ∈ ks0, lookupChild syms p.1 = .ok i := by
    intro m hm p hp
    obtain ⟨i, hi, hR⟩ := forall₂_mem_left (mapM_ok hks0) (List.mem_flatMap.2 ⟨m, hm, List.mem_map.2 ⟨p, hp, rfl⟩⟩)
    exact ⟨i, hi, hR⟩
  have hset : {ω | ∀ m ∈ ms, ∀ p ∈ m, p.2.holds ω} = {ω | ∀ B ∈ syms.map (onSyms ms), ω ∈ B} := by
    ext ω
    simp only [Set.mem_setOf_eq, List.mem_map, forall_exists_index, and_imp, forall_apply_eq_imp_iff₂]
    constructor
    · intro h S _ m hm p hp _; exact h m hm p hp
    · intro h m hm p hp
      obtain ⟨i, -, hi⟩ := hlook m hm p hp
      obtain ⟨hi1, hi2⟩ := lookupChild_ok hi
      exact h _ (List.getElem_mem hi1) m hm p hp hi2
  have hfst : (syms.zip dens).map Prod.fst = syms := List.map_fst_zip (by omega)
  have hF2 : List.Forall₂ (fun (q : Finset String × Measure Asg) B => MeasurableSet B ∧ DepOn q.1 B) (syms.zip dens) (syms.map (onSyms ms)) := by
    rw [List.forall₂_iff_get]
    refine ⟨by simp [hl], fun i h1 h2 => ?_⟩
    simp only [List.get_eq_getElem, List.getElem_zip, List.getElem_map]
    refine ⟨measurable_onSyms _ _, fun ω ω' hω => ?_⟩
    refine forall₂_congr (fun m hm => forall₂_congr (fun p hp => forall_congr' (fun hS => ?_)))
    exact (hms m hm p hp).depOn hS ω ω' hω
  rw [hset, indep_real (by
    intro q hq
    exact hp q.2 (List.of_mem_zip hq).2) (by rw [hfst]; exact hd) hF2]
  generalize hL : List.zipWith (fun (q : Finset String × Measure Asg) B => q.2.real B) (syms.zip dens) (syms.map (onSyms ms)) = L
  have hLlen : L.length = syms.length := by rw [← hL]; simp [hl]
  have hLget : ∀ i (hi : i < syms.length) (hi' : i < dens.length), L.getD i 1 = dens[i].real (onSyms ms syms[i]) := by
    intro i hi hi'
    rw [← hL, List.getD_eq_getElem?_getD, List.getElem?_eq_getElem (by simp; omega)]
    simp
  have hps' : ps = ks0.dedup.map (fun i => L.getD i 1) := by
    refine mapM_map_eq hps ?_
    intro i hi p hp
    obtain ⟨s, hs, hsi⟩ := forall₂_mem_right (mapM_ok hks0) (List.mem_dedup.1 hi)
    obtain ⟨m, hm, hs⟩ := List.mem_flatMap.1 hs
    obtain ⟨q, hq, rfl⟩ := List.mem_map.1 hs
    obtain ⟨hi1, hi2⟩ := lookupChild_ok hsi
    unfold conjKey at hp
    simp only [bind, Except.bind] at hp
    split at hp; · cases hp
    rename_i cl hcl
    obtain ⟨c1, c2, c3⟩ := conjClause_ok hms hcl
    have hne : cl ≠ [] := by
      rintro rfl
      have := (c3 q.1).2 ⟨m, hm, hs, hsi⟩
      simp at this
    rw [if_neg hne] at hp
    split at hp; swap; · cases hp
    rename_i f hfi
    have := hf i hi1 (by omega) f hfi cl p hne c1 (by
      intro q hq
      obtain ⟨m', hm', -, hq'⟩ := (c3 q.1).1 (List.mem_map.2 ⟨q, hq, rfl⟩)
      obtain ⟨h1, h2⟩ := lookupChild_ok hq'
      exact h2) hp
    rw [this, hLget i hi1 (by omega)]
    congr 1
    ext ω
    rw [Set.mem_setOf_eq, c2]
    refine forall₂_congr (fun m hm => forall₂_congr (fun p hp => ?_))
    constructor
    · intro h hS
      obtain ⟨j, -, hj⟩ := hlook m hm p hp
      exact h (by rw [hj, lookupChild_eq hd hj hi1 hS])
    · intro h hj
      exact h (lookupChild_ok hj).2
  rw [hps', prod_getD L, ← List.prod_toFinset _ (List.nodup_dedup _), hLlen]
  refine Finset.prod_subset ?_ ?_
  · intro i hi
    simp only [List.mem_toFinset, List.mem_dedup] at hi
    obtain ⟨s, hs, hsi⟩ := forall₂_mem_right (mapM_ok hks0) hi
    exact Finset.mem_range.2 (lookupChild_ok hsi).1
  · intro i hi hni
    have hi1 := Finset.mem_range.1 hi
    simp only [List.mem_toFinset, List.mem_dedup] at hni
    rw [hLget i hi1 (by omega)]
    have : onSyms ms syms[i] = Set.univ := by
      ext ω
      simp only [Set.mem_univ, iff_true]
      intro m hm p hp hS
      obtain ⟨j, hj, hj'⟩ := hlook m hm p hp
      rw [lookupChild_eq hd hj' hi1 hS] at hj
      exact absurd hj hni
    have hpm : IsProbabilityMeasure (dens[i]'(by omega)) := hp _ (List.getElem_mem _)
    rw [this]
    simp

end Sppl
