import Verif.Comp.RenderSem

set_option linter.all false

/-!
# Lemmas on `render_sppl`: what the commands of a leaf mean
-/

namespace Sppl
open Classical MeasureTheory
open scoped ENNReal ProbabilityTheory

theorem measurable_active : ∀ {ps : List (Asg → Prop)} {bs : List (Asg → Bool)}, (∀ p ∈ ps, MeasurableSet {ω | p ω}) → (∀ b ∈ bs, MeasurableSet {ω | b ω = true}) →
    MeasurableSet {ω | activeRegular (ps.map (fun p => p ω)) (bs.map (fun b => b ω))} := by
  intro ps
  induction ps with
  | nil => intro bs _ _; simp [activeRegular]
  | cons p ps ih =>
    intro bs hp hb
    cases bs with
    | nil => simp [activeRegular]
    | cons b bs =>
      have h1 := ih (bs := bs) (fun q hq => hp q (by simp [hq])) (fun q hq => hb q (by simp [hq]))
      have : {ω | activeRegular ((p :: ps).map (fun p => p ω)) ((b :: bs).map (fun b => b ω))} =
          ({ω | b ω = true}ᶜ ∪ {ω | p ω}) ∩ {ω | activeRegular (ps.map (fun p => p ω)) (bs.map (fun b => b ω))} := by
        ext ω
        simp only [List.map_cons, activeRegular, Set.mem_ofPred_eq, Set.mem_inter_iff, Set.mem_union, Set.mem_compl_iff]
        refine and_congr_left (fun _ => ?_)
        tauto
      rw [this]
      exact ((hb b (by simp)).compl.union (hp p (by simp))).inter h1

/-- Regularity is measurable. -/
theorem measurable_regular : (∀ t : Tr, MeasurableSet {ω : Asg | t.Regular ω}) ∧ ∀ e : Ev, MeasurableSet {ω : Asg | e.Regular ω} := by
  apply sizeInd
  · intro t ihT ihE
    cases t with
    | id s => simp [Tr.Regular]
    | log t b =>
      simp only [Tr.Regular]
      refine (ihT t (by simp; omega)).inter ?_
      have h1 := (measurableSet_nums (measurableSet_singleton (0 : ℝ))).compl.preimage (measurable_eval.1 t)
      have e : (fun ω : Asg => t.eval ω) ⁻¹' {v : Option (Val ℝ) | ∃ x, v = some (.num x) ∧ x ∈ ({0} : Set ℝ)}ᶜ = {ω : Asg | t.eval ω ≠ some (.num 0)} := by
        ext ω
        simp
      rw [e] at h1
      exact h1
    | pw ts es ds =>
      simp only [Tr.Regular, Ev.regularL_iff, Tr.regularL_eq, Ev.holdsL_eq]
      refine MeasurableSet.inter ?_ ?_
      · have : {ω : Asg | ∀ e ∈ es, e.Regular ω} = ⋂ e ∈ es, {ω | e.Regular ω} := by ext; simp
        show MeasurableSet {ω : Asg | ∀ e ∈ es, e.Regular ω}
        rw [this]
        exact MeasurableSet.biInter (Set.Finite.countable (List.finite_toSet es)) (fun e he => ihE e (Tr.sizeOf_pw_right he))
      · have := measurable_active (ps := ts.map (fun t ω => t.Regular ω)) (bs := es.map (fun e ω => e.holdsB ω)) ?_ ?_
        · show MeasurableSet {ω : Asg | activeRegular (ts.map (fun t => t.Regular ω)) (es.map (fun e => e.holdsB ω))}
          simpa [Function.comp_def] using this
        · intro f hf
          obtain ⟨t, ht, rfl⟩ := List.mem_map.1 hf
          exact ihT t (Tr.sizeOf_pw_left ht)
        · intro f hf
          obtain ⟨e, he, rfl⟩ := List.mem_map.1 hf
          exact e.measurable
    | radical t n => simp only [Tr.Regular]; exact ihT t (by simp; omega)
    | exp t n => simp only [Tr.Regular]; exact ihT t (by simp; omega)
    | abs t => simp only [Tr.Regular]; exact ihT t (by simp)
    | recip t => simp only [Tr.Regular]; exact ihT t (by simp)
    | poly t n => simp only [Tr.Regular]; exact ihT t (by simp; omega)
  · intro e ihT ihE
    cases e with
    | ivl t i => simp only [Ev.Regular]; exact ihT t (by simp; omega)
    | fin t i => simp only [Ev.Regular]; exact ihT t (by simp; omega)
    | nom t i => simp only [Ev.Regular]; exact ihT t (by simp; omega)
    | or es =>
      have : {ω : Asg | (Ev.or es).Regular ω} = ⋂ e ∈ es, {ω | e.Regular ω} := by ext; simp [Ev.Regular, Ev.regularL_iff]
      rw [this]
      exact MeasurableSet.biInter (Set.Finite.countable (List.finite_toSet es)) (fun e he => ihE e (Ev.sizeOf_or he))
    | and es =>
      have : {ω : Asg | (Ev.and es).Regular ω} = ⋂ e ∈ es, {ω | e.Regular ω} := by ext; simp [Ev.Regular, Ev.regularL_iff]
      rw [this]
      exact MeasurableSet.biInter (Set.Finite.countable (List.finite_toSet es)) (fun e he => ihE e (Ev.sizeOf_and he))

/-- The distribution `m` with the variables in `S`, independently, from `ν`. -/
noncomputable def put (S : Finset String) (ν m : Measure Asg) : Measure Asg := (ν.prod m).map (mergeAsg S)

theorem put_ae {α : Type} [MeasurableSpace α] {S : Finset String} {ρ : Measure α} {f : α → Asg} (hf : Measurable f) {m : Measure Asg} [IsProbabilityMeasure ρ] [IsProbabilityMeasure m] {p : Asg → Prop} (hp : MeasurableSet {ω | p ω})
    (h : ∀ᵐ x ∂ρ, ∀ ω, p (mergeAsg S (f x, ω))) : ∀ᵐ ω ∂(put S (ρ.map f) m), p ω := by
  have hq : MeasurableSet {x : α × Asg | p (mergeAsg S (f x.1, x.2))} := hp.preimage ((measurable_mergeAsg S).comp (hf.prodMap measurable_id))
  have e : (ρ.map f).prod m = (ρ.prod m).map (Prod.map f id) := by
    conv_lhs => rw [← Measure.map_id (μ := m)]
    rw [Measure.map_prod_map _ _ hf measurable_id]
  unfold put
  rw [e, Measure.map_map (measurable_mergeAsg S) (hf.prodMap measurable_id), ae_map_iff ((measurable_mergeAsg S).comp (hf.prodMap measurable_id)).aemeasurable hp]
  refine (Measure.ae_prod_iff_ae_ae hq).2 ?_
  filter_upwards [h] with x hx
  exact Filter.Eventually.of_forall hx

section
variable {D : List String} {H : PyHost} {c : Ctx} {L : Lib} {μ : Dist → Measure ℝ}

theorem acts_put {k : ℕ} {S : Finset String} {ps : List Cmd} {ν : Measure Asg} [IsProbabilityMeasure ν]
    (h : ∀ m : Measure Asg, IsProbabilityMeasure m → Cmd.SafeS c L μ ps m ∧ semS μ ps m = put S ν m) : Acts c L μ k [] S ps (fun _ => ν) := by
  have hf : Measurable (fun p : Asg × Asg => mergeAsg S (p.2, p.1)) := (measurable_mergeAsg S).comp measurable_swap
  refine ⟨fun _ _ => inferInstance, fun ω => ν.map (fun η => mergeAsg S (η, ω)), measurable_map_right hf, fun l ω _ _ => rfl, ?_⟩
  intro m hm _
  obtain ⟨h1, h2⟩ := h m hm
  refine ⟨h1, ?_⟩
  rw [h2, ← map_prod_bind hf]
  unfold put
  rw [← Measure.prod_swap, Measure.map_map (measurable_mergeAsg S) measurable_swap]
  rfl

theorem withIndep_put (X : String) (ν m : Measure Asg) [SFinite ν] [SFinite m] : withIndep X ν m = put {X} ν m := by
  unfold withIndep put
  rw [← Measure.prod_swap, Measure.map_map (measurable_addVar X) measurable_swap]
  congr 1
  funext p s
  simp [addVar, mergeAsg]

theorem put_cond {S : Finset String} {ν m : Measure Asg} [IsProbabilityMeasure ν] [IsProbabilityMeasure m] {A : Set Asg} (hA : MeasurableSet A)
    (hS : ∀ η ω, mergeAsg S (η, ω) ∈ A ↔ η ∈ A) : (put S ν m)[|A] = put S (ν[|A]) m := by
  unfold put
  rw [cond_map (measurable_mergeAsg S) _ hA]
  have e : mergeAsg S ⁻¹' A = A ×ˢ Set.univ := by ext ⟨η, ω⟩; simp [hS]
  rw [e]
  congr 1
  unfold ProbabilityTheory.cond
  rw [Measure.prod_smul_left, Measure.restrict_prod_eq_prod_univ, Measure.prod_prod]
  simp

theorem put_withVar {S : Finset String} {Y : String} {t r : Tr} {ν m : Measure Asg} [IsProbabilityMeasure ν] [IsProbabilityMeasure m] (hr : ∀ ω, r.eval ω = t.eval ω) (ht : t.SymOk)
    (hS : t.symbols ⊆ S) : (put S ν m).map (withVar Y r) = put (insert Y S) (ν.map (withVar Y t)) m := by
  have e : withVar Y r = withVar Y t := by funext ω s; simp [withVar, hr]
  rw [e]
  unfold put
  have hw := measurable_withVar Y t
  rw [Measure.map_map hw (measurable_mergeAsg S)]
  have e : (ν.map (withVar Y t)).prod m = (ν.prod m).map (Prod.map (withVar Y t) id) := by
    conv_lhs => rw [← Measure.map_id (μ := m)]
    rw [Measure.map_prod_map _ _ hw measurable_id]
  rw [e, Measure.map_map (measurable_mergeAsg _) (hw.prodMap measurable_id)]
  congr 1
  funext p
  funext s
  simp only [Function.comp, mergeAsg, withVar, Prod.map, Finset.mem_insert, id]
  by_cases hs : s = Y
  · simp only [hs, true_or, if_true]
    refine eval_congr.1 t ht (fun x hx => ?_)
    show (if x ∈ S then p.1 x else p.2 x) = p.1 x
    rw [if_pos (hS hx)]
  · simp [hs]

theorem extend_append_list (pre suf : Env) (ω : Asg) : Env.extend (pre ++ suf) ω = Env.extend suf (Env.extend pre ω) := by
  simp [Env.extend, List.foldl_append]

theorem extend_other {suf : Env} {ω : Asg} {s : String} (h : s ∉ suf.map Prod.fst) : Env.extend suf ω s = ω s := by
  induction suf generalizing ω with
  | nil => rfl
  | cons p suf ih =>
    simp only [List.map_cons, List.mem_cons, not_or] at h
    have := ih (ω := fun s => if s = p.1 then p.2.eval ω else ω s) h.2
    simp only [Env.extend, List.foldl_cons] at this ⊢
    rw [this]
    simp [h.1]

/-- The derived variables of a leaf. -/
theorem env_sem {ρ : Measure ℝ} [IsProbabilityMeasure ρ] {X : String} {m : Measure Asg} [IsProbabilityMeasure m] : ∀ (suf pre : Env),
    (∀ p ∈ suf, ∃ r, p.2.ReadsAs D H c r) → (∀ p ∈ suf, p.2.SymOk) → ((pre ++ suf).map Prod.fst).Nodup →
    (∀ q p r, suf = q ++ p :: r → ∀ x ∈ p.2.symbols, x ∈ pre.map Prod.fst ∨ x ∈ q.map Prod.fst) →
    (∀ᵐ x ∂ρ, ∀ p ∈ suf, p.2.Regular (Env.extend (pre ++ suf) (baseAsg X (.num x)))) →
    Cmd.SafeS c L μ (suf.map (fun p => .transform p.1 (readAs D H c p.2))) (put (pre.map Prod.fst).toFinset (ρ.map (fun x => Env.extend pre (baseAsg X (.num x)))) m) ∧
      semS μ (suf.map (fun p => .transform p.1 (readAs D H c p.2))) (put (pre.map Prod.fst).toFinset (ρ.map (fun x => Env.extend pre (baseAsg X (.num x)))) m) =
        put ((pre ++ suf).map Prod.fst).toFinset (ρ.map (fun x => Env.extend (pre ++ suf) (baseAsg X (.num x)))) m := by
  intro suf
  induction suf with
  | nil => intro pre _ _ _ _ _; simp [Cmd.SafeS, semS]
  | cons p suf ih =>
    intro pre hr hok hnd hsym hreg
    have hR := readAs_ok (hr p (by simp))
    have hp1 : IsProbabilityMeasure (ρ.map (fun x => Env.extend pre (baseAsg X (.num x)))) := Measure.isProbabilityMeasure_map (measurable_leafAsg X pre).aemeasurable
    have hsub : ∀ x ∈ p.2.symbols, x ∈ pre.map Prod.fst := fun x hx => by
      rcases hsym [] p suf rfl x hx with h | h
      · exact h
      · cases h
    have hpq : pre ++ p :: suf = (pre ++ [p]) ++ suf := by simp
    have hst := put_withVar (Y := p.1) (S := (pre.map Prod.fst).toFinset) (ν := ρ.map (fun x => Env.extend pre (baseAsg X (.num x)))) (m := m) hR.eval (hok p (by simp)) (fun x hx => by simpa using hsub x hx)
    have e1 : (insert p.1 (pre.map Prod.fst).toFinset : Finset String) = ((pre ++ [p]).map Prod.fst).toFinset := by ext; simp [or_comm]
    have e2 : (ρ.map (fun x => Env.extend pre (baseAsg X (.num x)))).map (withVar p.1 p.2) = ρ.map (fun x => Env.extend (pre ++ [p]) (baseAsg X (.num x))) := by
      rw [Measure.map_map (measurable_withVar _ _) (measurable_leafAsg X pre)]
      congr 1
      funext x
      rw [extend_append_list]
      rfl
    rw [e1, e2] at hst
    have hi := ih (pre ++ [p]) (fun q hq => hr q (by simp [hq])) (fun q hq => hok q (by simp [hq])) (by rw [← hpq]; exact hnd) (by
      intro q p' r hq x hx
      rcases hsym (p :: q) p' r (by rw [hq]; rfl) x hx with h | h
      · left; rw [List.map_append]; exact List.mem_append_left _ h
      · simp only [List.map_cons, List.mem_cons] at h
        rcases h with rfl | h
        · left; simp
        · exact .inr h) (by
      filter_upwards [hreg] with x hx q hq
      rw [← hpq]
      exact hx q (by simp [hq]))
    simp only [List.map_cons, Cmd.SafeS, semS, Cmd.Safe, Cmd.sem]
    rw [hst, hpq]
    refine ⟨⟨⟨hR.made, ?_⟩, hi.1⟩, hi.2⟩
    refine put_ae (measurable_leafAsg X pre) (measurable_regular.1 _) ?_
    filter_upwards [hreg] with x hx ω
    refine hR.regular _ ?_
    refine (regular_congr.1 p.2 (hok p (by simp)) ?_).1 (hx p (by simp))
    intro s hs
    have hs' := hsub s hs
    rw [extend_append_list]
    simp only [mergeAsg, List.mem_toFinset, if_pos hs']
    refine extend_other ?_
    rw [List.map_append, List.nodup_append] at hnd
    exact fun h => hnd.2.2 s hs' s h rfl

theorem EnvBuilt.symOk {X : String} {env : Env} (h : EnvBuilt X env) : ∀ p ∈ env, p.2.SymOk := by
  induction h with
  | base => intro p hp; simp at hp; subst hp; simp [Tr.SymOk]
  | step _ _ _ hok ih =>
    intro p hp
    rcases List.mem_append.1 hp with hp | hp
    · exact ih p hp
    · simp at hp; subst hp; exact hok

/-- A real leaf. -/
theorem acts_real {n : ℕ} {k : Kind} {X : String} {d : Dist} {supp : Ivl EReal} {cond : Bool} {env : Env} (hw : (Spe.real k X d supp cond env).WF c L μ)
    (hc : (Spe.real k X d supp cond env).CanRender D H c L μ) :
    Acts c L μ n [] (Spe.real k X d supp cond env).symbols (leafCmds D H c k X d supp cond env) (fun _ => (Spe.real k X d supp cond env).den μ) := by
  have hprob := hw.prob
  refine acts_put ?_
  intro m hm
  cases hw with
  | real hd hE hsupp hdisc hmass hreg =>
  cases hc with
  | @real _ _ _ _ _ _ dom _ hD hDa hcall hwf hread =>
  obtain ⟨es, rfl, hord⟩ := hE.built.order
  have hnd := hE.built.distinct
  have hok := hE.built.symOk
  have hpd : IsProbabilityMeasure (μ d) := hd.prob
  have hpb : IsProbabilityMeasure ((μ d).map (fun x => baseAsg X (.num x))) := Measure.isProbabilityMeasure_map (measurable_baseAsg X).aemeasurable
  have hρ : IsProbabilityMeasure (realMeas μ d supp cond) := by
    unfold realMeas
    split
    · rename_i hcond
      rw [if_pos hcond] at hmass
      exact ProbabilityTheory.cond_isProbabilityMeasure hmass
    · infer_instance
  have hsing : (fun x : ℝ => Env.extend [(X, .id X)] (baseAsg X (.num x))) = fun x => baseAsg X (.num x) := by
    funext x s
    simp only [Env.extend, List.foldl_cons, List.foldl_nil, Tr.eval]
    split
    · rename_i h; rw [h]
    · rfl
  -- after the condition
  have h0 : Cmd.SafeS c L μ (.sample X (.one (.real k d (domOf H d))) :: (if cond = true then [.condition (.ivl (.id X) supp)] else [])) m ∧
      semS μ (.sample X (.one (.real k d (domOf H d))) :: (if cond = true then [.condition (.ivl (.id X) supp)] else [])) m =
        put {X} ((realMeas μ d supp cond).map (fun x => baseAsg X (.num x))) m := by
    have hsrc : (Source.one (.real k d (domOf H d))).WF L μ := by rw [domOf_eq hcall]; exact .one hwf
    have hs : (Cmd.sample X (.one (.real k d (domOf H d)))).sem μ m = put {X} ((μ d).map (fun x => baseAsg X (.num x))) m := by
      rw [Cmd.sem]
      exact withIndep_put X ((μ d).map (fun x => baseAsg X (.num x))) m
    cases cond with
    | false => simp only [Bool.false_eq_true, if_false, Cmd.SafeS, semS, hs]; exact ⟨⟨hsrc, trivial⟩, by simp [realMeas]⟩
    | true =>
      simp only [if_true, Cmd.SafeS, semS, hs]
      have hset : ∀ ω : Asg, (Ev.ivl (.id X) supp).holds ω ↔ ∃ x, ω X = some (.num x) ∧ supp.Mem (x : EReal) := by
        intro ω
        simp [Tr.eval]
      refine ⟨⟨hsrc, ⟨.ivl (.id _) hsupp, by simp [Ev.All, NomId], by simp [Ev.All, NomSome], Filter.Eventually.of_forall (fun ω => by simp [Ev.Regular, Tr.Regular]), ?_⟩, trivial⟩, ?_⟩
      · refine put_ae (measurable_baseAsg X) ?_ ?_
        · have := (measurableSet_nums MeasurableSet.univ).preimage (measurable_pi_apply X : Measurable (fun ω : Asg => ω X))
          simpa [Ev.Typed, Tr.eval, Set.preimage] using this
        · exact Filter.Eventually.of_forall (fun x ω => by simp [Ev.Typed, Tr.eval, mergeAsg, baseAsg])
      · rw [Cmd.sem, put_cond (Ev.measurable _) (fun η ω => by simp only [Set.mem_ofPred_eq, hset]; simp [mergeAsg]), cond_map (measurable_baseAsg X) _ (Ev.measurable _)]
        have : (fun x : ℝ => baseAsg X (.num x)) ⁻¹' {ω | (Ev.ivl (.id X) supp).holds ω} = supp.reals := by
          ext x
          simp only [Set.mem_preimage, Set.mem_ofPred_eq, hset]
          simp [baseAsg, Ivl.reals]
        rw [this]
        simp [realMeas]
  have hcm : leafCmds D H c k X d supp cond ((X, .id X) :: es) = (.sample X (.one (.real k d (domOf H d))) :: (if cond = true then [.condition (.ivl (.id X) supp)] else [])) ++
      es.map (fun p => .transform p.1 (readAs D H c p.2)) := by simp [leafCmds]
  rw [hcm, safeS_append, semS_append, h0.2]
  have h1 := env_sem (L := L) (μ := μ) (ρ := realMeas μ d supp cond) (X := X) (m := m) es [(X, .id X)] hread (fun p hp => hok p (by simp [hp])) hnd (by
    intro q p r hq x hx
    simpa using hord q p r hq x hx) (by
    filter_upwards [hreg] with x hx p hp
    exact hx p (by simp [hp]))
  rw [hsing] at h1
  simp only [List.map_cons, List.map_nil, List.toFinset_cons, List.toFinset_nil, insert_empty_eq] at h1
  refine ⟨⟨h0.1, h1.1⟩, ?_⟩
  rw [h1.2]
  simp [Spe.symbols, Spe.den]

/-- A nominal leaf. -/
theorem acts_nominal {n : ℕ} {X : String} {dist : List (String × ℚ)} (hw : (Spe.nominal X dist).WF c L μ) :
    Acts c L μ n [] (Spe.nominal X dist).symbols [.sample X (.one (.nominal dist))] (fun _ => (Spe.nominal X dist).den μ) := by
  have hprob := hw.prob
  refine acts_put ?_
  intro m hm
  cases hw with
  | nominal hnd h0 h1 =>
  have e : (Source.one (.nominal dist)).law μ X = (Spe.nominal X dist).den μ := by simp [Source.law, Distr.law, Spe.den]
  refine ⟨⟨.one (.nominal hnd h0), trivial⟩, ?_⟩
  simp only [semS, Cmd.sem]
  rw [e, withIndep_put]
  rfl

end

end Sppl
