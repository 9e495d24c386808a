import Verif.Spe.Transform
import Verif.Spe.TransformSpec
import Verif.Spe.SimpLemmas
import Verif.Spe.CondLeaf

set_option linter.all false

/-!
# `transform` (helper lemmas)
-/

namespace Sppl
open Classical MeasureTheory

theorem measurable_withVar (Y : String) (t : Tr) : Measurable (withVar Y t) := by
  refine measurable_pi_iff.2 (fun s => ?_)
  unfold withVar
  by_cases hs : s = Y
  · simp only [hs, if_true]; exact measurable_eval.1 t
  · simp only [hs, if_false]; exact measurable_pi_apply s

theorem mixture_map {ws : List ℝ} {ms : List (Measure Asg)} {f : Asg → Asg} (hf : Measurable f) :
    (mixture ws ms).map f = mixture ws (ms.map (fun m => m.map f)) := by
  induction ms generalizing ws with
  | nil => simp [mixture_nil]
  | cons m ms ih =>
    cases ws with
    | nil => simp [mixture]
    | cons w ws => rw [List.map_cons, mixture_cons, mixture_cons, Measure.map_add _ _ hf, Measure.map_smul, ih]

theorem indep_withVar {Y : String} {t : Tr} {S : Finset String} {m : Measure Asg} {l : List (Finset String × Measure Asg)} [IsProbabilityMeasure m]
    (hl : ∀ q ∈ l, IsProbabilityMeasure q.2) (ht : t.SymOk) (hS : t.symbols ⊆ S) :
    indep ((insert Y S, m.map (withVar Y t)) :: l) = (indep ((S, m) :: l)).map (withVar Y t) := by
  have p := indep_prob hl
  have hw := measurable_withVar Y t
  rw [indep_cons, indep_cons, Measure.map_map hw (measurable_mergeAsg S)]
  have e : (m.map (withVar Y t)).prod (indep l) = (m.prod (indep l)).map (Prod.map (withVar Y t) id) := by
    conv_lhs => rw [← Measure.map_id (μ := indep l)]
    rw [Measure.map_prod_map _ _ hw measurable_id]
  rw [e, Measure.map_map (measurable_mergeAsg _) (hw.prodMap measurable_id)]
  congr 1
  funext p
  funext s
  simp only [Function.comp, mergeAsg, withVar, Prod.map, Finset.mem_insert, id]
  by_cases hs : s = Y
  · simp only [hs, true_or, if_true]
    refine eval_congr.1 t ht (fun x hx => ?_)
    show p.1 x = if x ∈ S then p.1 x else p.2 x
    rw [if_pos (hS hx)]
  · simp [hs]

/-- Regularity only depends on the variables mentioned. -/
theorem regular_congr {ω ω' : Asg} :
    (∀ t : Tr, t.SymOk → (∀ s ∈ t.symbols, ω s = ω' s) → (t.Regular ω ↔ t.Regular ω')) ∧
    (∀ e : Ev, e.SymOk → (∀ s ∈ e.symbols, ω s = ω' s) → (e.Regular ω ↔ e.Regular ω')) := by
  apply sizeInd
  · intro t ihT ihE hok hs
    cases t with
    | id s => simp [Tr.Regular]
    | pw ts es ds =>
      simp only [Tr.SymOk, Tr.symOkL_iff, Ev.symOkL_iff] at hok
      simp only [Tr.symbols] at hs
      have hs2 : ∀ e ∈ es, ∀ s ∈ e.symbols, ω s = ω' s := fun e he s hs' => hs s (hok.2.2 (Ev.mem_symbolsL.2 ⟨e, he, hs'⟩))
      simp only [Tr.Regular, Ev.regularL_iff, Tr.regularL_eq, Ev.holdsL_eq]
      have e1 : ts.map (fun t => t.Regular ω) = ts.map (fun t => t.Regular ω') := by
        apply List.map_congr_left
        intro t ht
        exact propext (ihT t (Tr.sizeOf_pw_left ht) (hok.1 t ht) fun s hs' => hs s (Tr.mem_symbolsL.2 ⟨t, ht, hs'⟩))
      have e2 : es.map (fun e => e.holdsB ω) = es.map (fun e => e.holdsB ω') := by
        apply List.map_congr_left
        intro e he
        exact eval_congr.2 e (hok.2.1 e he) (hs2 e he)
      rw [e1, e2]
      refine and_congr_left (fun _ => forall₂_congr (fun e he => ihE e (Tr.sizeOf_pw_right he) (hok.2.1 e he) (hs2 e he)))
    | log t b =>
      simp only [Tr.SymOk] at hok
      simp only [Tr.symbols] at hs
      simp only [Tr.Regular]
      rw [ihT t (by simp; try omega) hok hs, eval_congr.1 t hok hs]
    | _ =>
      simp only [Tr.SymOk] at hok
      simp only [Tr.symbols] at hs
      simp only [Tr.Regular]
      exact ihT _ (by simp; try omega) hok hs
  · intro e ihT ihE hok hs
    cases e with
    | or es =>
      simp only [Ev.SymOk, Ev.symOkL_iff] at hok
      simp only [Ev.symbols] at hs
      simp only [Ev.Regular, Ev.regularL_iff]
      exact forall₂_congr (fun e he => ihE e (Ev.sizeOf_or he) (hok e he) fun s hs' => hs s (Ev.mem_symbolsL.2 ⟨e, he, hs'⟩))
    | and es =>
      simp only [Ev.SymOk, Ev.symOkL_iff] at hok
      simp only [Ev.symbols] at hs
      simp only [Ev.Regular, Ev.regularL_iff]
      exact forall₂_congr (fun e he => ihE e (Ev.sizeOf_and he) (hok e he) fun s hs' => hs s (Ev.mem_symbolsL.2 ⟨e, he, hs'⟩))
    | _ =>
      simp only [Ev.SymOk] at hok
      simp only [Ev.symbols] at hs
      simp only [Ev.Regular]
      exact ihT _ (by simp; try omega) hok hs

theorem EnvBuilt.symbols_keys {X : String} {env : Env} (h : EnvBuilt X env) : ∀ p ∈ env, ∀ s ∈ p.2.symbols, s ∈ env.keys := by
  induction h with
  | base => intro p hp s hs; simp at hp; subst hp; simpa [Tr.symbols, Env.keys] using hs
  | @step env Y f _ _ hf _ ih =>
    intro p hp s hs
    have : s ∈ env.keys := by
      rcases List.mem_append.1 hp with hp | hp
      · exact ih p hp s hs
      · simp at hp; subst hp; exact hf s hs
    simp only [Env.keys, List.map_append, List.mem_append] at this ⊢
    exact .inl this

theorem envRegular_append {c : Ctx} {X Y : String} {env : Env} {t : Tr} {x : ℝ} (h : EnvOK c X env) (ht : t.SymOk) (hY : Y ∉ env.keys)
    (hS : ∀ s ∈ t.symbols, s ∈ env.keys) (hr : EnvRegular X env x) (ht' : t.Regular (env.extend (baseAsg X (.num x)))) :
    EnvRegular X (env ++ [(Y, t)]) x := by
  intro p hp
  rw [Env.extend_append]
  have ne : ∀ s, s ∈ env.keys → s ≠ Y := fun s hs h => hY (h ▸ hs)
  rcases List.mem_append.1 hp with hp | hp
  · refine (regular_congr.1 p.2 ((Made.symOk c).1 p.2 (h.made p hp)) (fun s hs => ?_)).1 (hr p hp)
    rw [if_neg (ne s (h.built.symbols_keys p hp s hs))]
  · simp at hp; subst hp
    refine (regular_congr.1 t ht (fun s hs => ?_)).1 ht'
    rw [if_neg (ne s (hS s hs))]

theorem envTransform_ok {env env' : Env} {Y : String} {t : Tr} (h : envTransform env Y t = .ok env') :
    env' = env ++ [(Y, t)] ∧ Y ∉ env.keys ∧ ∀ s ∈ t.symbols, s ∈ env.keys := by
  unfold envTransform at h
  split at h; · cases h
  split at h; swap; · cases h
  cases h
  refine ⟨rfl, by assumption, by assumption⟩

theorem transformL_eq (L : Lib) (Y : String) (t : Tr) (cs : List Spe) : Spe.transformL L Y t cs = cs.map (Spe.transform L Y t) := by
  induction cs with
  | nil => rfl
  | cons s cs ih => simp [Spe.transformL, ih]

theorem holders_one {cs : List Spe} {S : Finset String} {i : ℕ} (h : holders cs S = [i]) :
    ∃ s, cs[i]? = some s ∧ S ⊆ s.symbols ∧ ∀ j s', cs[j]? = some s' → S ⊆ s'.symbols → j = i := by
  have mem : ∀ j, j ∈ holders cs S ↔ ∃ s, cs[j]? = some s ∧ S ⊆ s.symbols := by
    intro j
    simp only [holders, List.mem_map, List.mem_filter, decide_eq_true_eq, Prod.exists, exists_eq_right]
    constructor
    · rintro ⟨s, h1, h2⟩; exact ⟨s, by simpa [List.mem_zipIdx_iff_getElem?] using h1, h2⟩
    · rintro ⟨s, h1, h2⟩; exact ⟨s, by simpa [List.mem_zipIdx_iff_getElem?] using h1, h2⟩
  rw [h] at mem
  obtain ⟨s, h1, h2⟩ := (mem i).1 (by simp)
  exact ⟨s, h1, h2, fun j s' h3 h4 => by simpa using (mem j).2 ⟨s', h3, h4⟩⟩

variable {c : Ctx} {L : Lib} {μ : Dist → Measure ℝ}

theorem mkProd_disj {cs : List Spe} {s : Spe} (hcs : ∀ t ∈ cs, t.WF c L μ) (h : mkProd cs = .ok s) : (cs.map Spe.symbols).Pairwise Disjoint := by
  unfold mkProd at h
  simp only at h
  split at h; · cases h
  split at h; swap; · cases h
  rename_i hd
  have := areDisjoint_iff.1 hd
  rw [Spe.symbolsL_eq, List.pairwise_map, List.pairwise_flatMap] at this
  rw [List.pairwise_map]
  refine this.2.imp_of_mem ?_
  intro a b ha hb hab
  rw [Finset.disjoint_left]
  intro x hxa hxb
  obtain ⟨t, ht, hx1⟩ := ((prodChildren_ok (hcs a ha)).2.2.1 x).1 hxa
  obtain ⟨u, hu, hx2⟩ := ((prodChildren_ok (hcs b hb)).2.2.1 x).1 hxb
  exact Finset.disjoint_left.1 (hab t ht u hu) hx1 hx2

/-- What `transform` guarantees. -/
structure TransOK (c : Ctx) (L : Lib) (μ : Dist → Measure ℝ) (Y : String) (t : Tr) (s s' : Spe) : Prop where
  wf : s'.WF c L μ
  new : Y ∉ s.symbols
  old : t.symbols ⊆ s.symbols
  syms : s'.symbols = insert Y s.symbols
  den : s'.den μ = (s.den μ).map (withVar Y t)
  plain : ∀ E, s.atomSyms = ∅ → s.Ready E → s'.atomSyms = ∅ ∧ s'.Ready E

theorem atomSymsL_empty {cs : List Spe} : Spe.atomSymsL cs = ∅ ↔ ∀ s ∈ cs, s.atomSyms = ∅ := by
  constructor
  · intro h s hs
    refine Finset.eq_empty_of_forall_notMem (fun x hx => ?_)
    have : x ∈ Spe.atomSymsL cs := Spe.mem_atomSymsL.2 ⟨s, hs, hx⟩
    rw [h] at this; simp at this
  · intro h
    refine Finset.eq_empty_of_forall_notMem (fun x hx => ?_)
    obtain ⟨s, hs, hx⟩ := Spe.mem_atomSymsL.1 hx
    rw [h s hs] at hx; simp at hx

theorem transform_ok {Y : String} {t : Tr} (ht : t.MadeG true c) {s : Spe} (hs : s.WF c L μ) : ∀ {s' : Spe}, s.CanTransform μ t →
    s.transform L Y t = .ok s' → TransOK c L μ Y t s s' := by
  have hok : t.SymOk := (Made.symOk c).1 t ht
  have hw := measurable_withVar Y t
  induction hs with
  | @real k X d supp cond env h1 h2 h3 h4 h5 h6 =>
    intro s' hc h
    cases hc with
    | real hc =>
    simp only [Spe.transform, bind, Except.bind] at h
    split at h; · cases h
    rename_i env' he
    obtain ⟨rfl, hY, hS⟩ := envTransform_ok he
    obtain ⟨rfl, hd⟩ := mkReal_ok h
    have e : (fun x : ℝ => Env.extend (env ++ [(Y, t)]) (baseAsg X (.num x))) = withVar Y t ∘ fun x => env.extend (baseAsg X (.num x)) := by
      funext x; rw [Env.extend_append]; rfl
    refine ⟨.real h1 ⟨.step h2.built hY hS hok, ?_⟩ h3 h4 h5 ?_, ?_, ?_, ?_, ?_, fun E _ hr => ⟨rfl, by cases hr with | real hv => exact .real hv⟩⟩
    · intro p hp
      rcases List.mem_append.1 hp with hp | hp
      · exact h2.made p hp
      · simp at hp; subst hp; exact ht
    · filter_upwards [h6, hc] with x hx1 hx2
      exact envRegular_append h2 hok hY hS hx1 hx2
    · simpa [Spe.symbols, Env.keys] using hY
    · intro s hs'; simpa [Spe.symbols, Env.keys] using hS s hs'
    · ext s; simp [Spe.symbols, Env.keys, or_comm]
    · simp only [Spe.den]
      rw [e, Measure.map_map hw (measurable_leafAsg X env)]
  | @atomic X v env h2 h3 h4 =>
    intro s' hc h
    cases hc with
    | atomic hc1 hc2 =>
    simp only [Spe.transform, bind, Except.bind] at h
    split at h; · cases h
    rename_i env' he
    obtain ⟨rfl, hY, hS⟩ := envTransform_ok he
    cases h
    have hX : X ∈ (Spe.atomic X v env).atomSyms := by
      simp only [Spe.atomSyms, List.mem_toFinset]
      exact (by simpa [Env.keys] using h2.built.base_mem)
    refine ⟨.atomic ⟨.step h2.built hY hS hok, ?_⟩ ?_ ?_, ?_, ?_, ?_, ?_, fun E h _ => by rw [h] at hX; simp at hX⟩
    · intro p hp
      rcases List.mem_append.1 hp with hp | hp
      · exact h2.made p hp
      · simp at hp; subst hp; exact ht
    · intro p hp
      rcases List.mem_append.1 hp with hp | hp
      · exact h3 p hp
      · simp at hp; subst hp; exact hc1
    · exact envRegular_append h2 hok hY hS h4 hc2
    · simpa [Spe.symbols, Env.keys] using hY
    · intro s hs'; simpa [Spe.symbols, Env.keys] using hS s hs'
    · ext s; simp [Spe.symbols, Env.keys, or_comm]
    · simp only [Spe.den]
      rw [Measure.map_dirac' hw, Env.extend_append]; rfl
  | nominal => intro s' hc h; simp [Spe.transform] at h
  | @sum cs ws S h1 hne hl hw0 hs hS ih =>
    intro s' hc h
    cases hc with
    | sum hc =>
    simp only [Spe.transform, bind, Except.bind] at h
    split at h; · cases h
    rename_i cs' hcs
    rw [transformL_eq] at hcs
    have hF : List.Forall₂ (fun s r => Spe.transform L Y t s = .ok r) cs cs' := by
      have := mapM_ok hcs
      rw [List.forall₂_map_left_iff] at this
      exact this
    have hF' : List.Forall₂ (fun s r => TransOK c L μ Y t s r) cs cs' := by
      refine List.forall₂_iff_get.2 ⟨hF.length_eq, fun i h1 h2 => ?_⟩
      exact ih _ (List.get_mem _ _) (hc _ (List.get_mem _ _)) ((List.forall₂_iff_get.1 hF).2 i h1 h2)
    have hwf : ∀ r ∈ cs', r.WF c L μ := by
      intro r hr
      obtain ⟨s, hs, k⟩ := forall₂_mem_right hF' hr
      exact k.wf
    have K := mkSum_ok hwf hw0 h
    obtain ⟨s0, cs0, rfl⟩ := List.exists_cons_of_ne_nil hne
    cases hF' with
    | @cons _ r0 _ cs1 k0 k1 =>
    have hsy : (Spe.sum (s0 :: cs0) ws).symbols = s0.symbols := by simp [Spe.symbols, Spe.symbolsL]
    have hr0 : r0.symbols = s'.symbols := K.2.1 r0 (by simp)
    have hF'' : List.Forall₂ (fun s r => TransOK c L μ Y t s r) (s0 :: cs0) (r0 :: cs1) := .cons k0 k1
    refine ⟨K.1, by rw [hsy]; exact k0.new, by rw [hsy]; exact k0.old, by rw [hsy, ← hr0]; exact k0.syms, ?_, ?_⟩
    swap
    · intro E hA hE
      cases hE with
      | sum e1 e2 =>
      simp only [Spe.atomSyms, atomSymsL_empty] at hA
      have key : ∀ r ∈ r0 :: cs1, r.atomSyms = ∅ ∧ r.Ready E := by
        intro r hr
        obtain ⟨s, hs, k⟩ := forall₂_mem_right hF'' hr
        exact k.plain E (hA s hs) (e1 s hs)
      exact ⟨Finset.subset_empty.1 (K.2.2.2.1.trans (atomSymsL_empty.2 (fun r hr => (key r hr).1)).le), K.2.2.2.2.2.2.2 E (fun r hr => (key r hr).2) e2⟩
    rw [K.2.2.1]
    simp only [Spe.den]
    rw [Spe.denL_eq, mixture_map hw, List.map_map]
    congr 1
    have gen : ∀ l l' : List Spe, List.Forall₂ (fun s r => TransOK c L μ Y t s r) l l' →
        l'.map (Spe.den μ) = l.map ((fun m => m.map (withVar Y t)) ∘ Spe.den μ) := by
      intro l l' hll
      induction hll with
      | nil => rfl
      | cons k _ ih => rw [List.map_cons, List.map_cons, ih, k.den]; rfl
    exact gen _ _ hF''
  | @prod cs h1 hne hd ih =>
    intro s' hc h
    cases hc with
    | prod hc =>
    simp only [Spe.transform, bind, Except.bind] at h
    split at h; swap; · cases h
    rename_i hall
    split at h; swap; · cases h
    rename_i i hi
    split at h; swap; · cases h
    rename_i r hr
    split at h; · cases h
    rename_i _ s1
    obtain ⟨s0, hi0, hS0, -⟩ := holders_one hi
    have hs0 : s0 ∈ cs := List.mem_of_getElem? hi0
    rw [transformL_eq, List.getElem?_map, hi0] at hr
    simp only [Option.map_some, Option.some.injEq] at hr
    have k := ih s0 hs0 (hc s0 hs0 hS0) hr
    have hlt : i < cs.length := by
      by_contra hh
      rw [List.getElem?_eq_none (by omega)] at hi0; cases hi0
    have hget : cs[i] = s0 := by rw [List.getElem?_eq_getElem hlt] at hi0; exact Option.some.inj hi0
    have p1 : cs.Perm (s0 :: cs.eraseIdx i) := by
      have := (List.getElem_cons_eraseIdx_perm hlt).symm
      rwa [hget] at this
    have p2 : (cs.set i s1).Perm (s1 :: cs.eraseIdx i) := List.set_perm_cons_eraseIdx hlt s1
    have hwf : ∀ r ∈ cs.set i s1, r.WF c L μ := by
      intro r hr
      rcases List.mem_cons.1 (p2.subset hr) with rfl | hr
      · exact k.wf
      · exact h1 r (List.mem_of_mem_eraseIdx hr)
    have K := mkProd_ok hwf h
    have hd1 : ((s1 :: cs.eraseIdx i).map Spe.symbols).Pairwise Disjoint :=
      (List.Perm.pairwise_iff (fun h => h.symm) (p2.map _)).1 (mkProd_disj hwf h)
    have hd0 : ((s0 :: cs.eraseIdx i).map Spe.symbols).Pairwise Disjoint := by
      rw [Spe.symbolsL_eq] at hd
      exact (List.Perm.pairwise_iff (fun h => h.symm) (p1.map _)).1 hd
    have hsy : ∀ x, x ∈ (Spe.prod cs).symbols ↔ x ∈ s0.symbols ∨ ∃ r ∈ cs.eraseIdx i, x ∈ r.symbols := by
      intro x
      rw [Spe.mem_symbols_prod]
      constructor
      · rintro ⟨r, hr, hx⟩
        rcases List.mem_cons.1 (p1.subset hr) with rfl | hr
        · exact .inl hx
        · exact .inr ⟨r, hr, hx⟩
      · rintro (hx | ⟨r, hr, hx⟩)
        · exact ⟨s0, hs0, hx⟩
        · exact ⟨r, List.mem_of_mem_eraseIdx hr, hx⟩
    have hp1 : ∀ q ∈ groups μ (cs.eraseIdx i), IsProbabilityMeasure q.2 := groups_prob (fun r hr => h1 r (List.mem_of_mem_eraseIdx hr))
    have hps0 := (h1 s0 hs0).prob
    refine ⟨K.1, ?_, fun x hx => hall x hx, ?_, ?_, ?_⟩
    rotate_left 3
    · intro E hA hE
      cases hE with
      | prod e1 =>
      simp only [Spe.atomSyms, atomSymsL_empty] at hA
      have key : ∀ r ∈ cs.set i s1, r.atomSyms = ∅ ∧ r.Ready E := by
        intro r hr
        rcases List.mem_cons.1 (p2.subset hr) with rfl | hr
        · exact k.plain E (hA s0 hs0) (e1 s0 hs0)
        · exact ⟨hA r (List.mem_of_mem_eraseIdx hr), e1 r (List.mem_of_mem_eraseIdx hr)⟩
      exact ⟨Finset.subset_empty.1 (K.2.2.2.1.trans (atomSymsL_empty.2 (fun r hr => (key r hr).1)).le), K.2.2.2.2.2.2 E (fun r hr => (key r hr).2)⟩
    · intro hY
      rcases (hsy Y).1 hY with hY | ⟨r, hr, hY⟩
      · exact k.new hY
      · rw [List.map_cons, List.pairwise_cons] at hd1
        have := hd1.1 r.symbols (List.mem_map.2 ⟨r, hr, rfl⟩)
        rw [k.syms] at this
        exact Finset.disjoint_left.1 this (Finset.mem_insert_self _ _) hY
    · rw [K.2.1]
      ext x
      rw [Finset.mem_insert, hsy, Spe.mem_symbols_prod]
      constructor
      · rintro ⟨r, hr, hx⟩
        rcases List.mem_cons.1 (p2.subset hr) with rfl | hr
        · rw [k.syms, Finset.mem_insert] at hx
          rcases hx with hx | hx
          · exact .inl hx
          · exact .inr (.inl hx)
        · exact .inr (.inr ⟨r, hr, hx⟩)
      · intro hx
        have : x ∈ s1.symbols ∨ ∃ r ∈ cs.eraseIdx i, x ∈ r.symbols := by
          rw [k.syms, Finset.mem_insert]
          tauto
        rcases this with hx | ⟨r, hr, hx⟩
        · exact ⟨s1, p2.symm.subset (by simp), hx⟩
        · exact ⟨r, p2.symm.subset (by simp [hr]), hx⟩
    · rw [K.2.2.1, den_prod, den_prod]
      have e1 : indep (groups μ cs) = indep (groups μ (s0 :: cs.eraseIdx i)) :=
        indep_perm (p1.map _) (groups_prob h1) (by rw [Spe.symbolsL_eq] at hd; simpa [groups, List.map_map, Function.comp_def] using hd)
      have e2 : indep (groups μ (cs.set i s1)) = indep (groups μ (s1 :: cs.eraseIdx i)) :=
        indep_perm (p2.map _) (groups_prob hwf) (by simpa [groups, List.map_map, Function.comp_def] using mkProd_disj hwf h)
      rw [e1, e2]
      show indep ((s1.symbols, s1.den μ) :: groups μ (cs.eraseIdx i)) = (indep ((s0.symbols, s0.den μ) :: groups μ (cs.eraseIdx i))).map _
      rw [k.syms, k.den]
      exact indep_withVar hp1 hok hS0
end Sppl
