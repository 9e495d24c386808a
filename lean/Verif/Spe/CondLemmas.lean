import Verif.Spe.SimpLemmas

set_option linter.all false

/-!
# Conditioning sums and products (helper lemmas)
-/

namespace Sppl
open Classical MeasureTheory
open scoped ENNReal ProbabilityTheory

variable {c : Ctx} {L : Lib} {μ : Dist → Measure ℝ} {hash : Spe → ℤ}

theorem Spe.condMemL_eq {n : ℕ} (cs : List Spe) : Spe.condMemL c L hash n cs = cs.map (Spe.condMem c L hash n) := by
  induction cs with
  | nil => rfl
  | cons s ss ih => simp [Spe.condMemL, ih]

/-- Sets of measure zero can be dropped. -/
theorem drop_null {α β : Type} [MeasurableSpace β] {ν : Measure β} [IsFiniteMeasure ν] {l : List α} {f : α → Set β} (hm : ∀ a ∈ l, MeasurableSet (f a)) :
    (∀ᵐ x ∂ν, (∃ B ∈ (l.filter (fun a => ν.real (f a) ≠ 0)).map f, x ∈ B) ↔ ∃ B ∈ l.map f, x ∈ B) := by
  have hnull : ∀ᵐ x ∂ν, ∀ a ∈ l, x ∈ f a → ν.real (f a) ≠ 0 := by
    clear hm
    induction l with
    | nil => simp
    | cons a l ih =>
      by_cases ha : ν.real (f a) = 0
      · have h0 : ∀ᵐ x ∂ν, x ∉ f a := by
          rw [ae_iff]
          have : ν (f a) = 0 := by
            by_contra hne
            exact real_ne_zero.2 hne ha
          simpa using this
        filter_upwards [ih, h0] with x hx h1 b hb hxb
        rcases List.mem_cons.1 hb with rfl | hb
        · exact absurd hxb h1
        · exact hx b hb hxb
      · filter_upwards [ih] with x hx b hb hxb
        rcases List.mem_cons.1 hb with rfl | hb
        · exact ha
        · exact hx b hb hxb
  filter_upwards [hnull] with x hx
  constructor
  · rintro ⟨B, hB, hxB⟩
    obtain ⟨a, ha, rfl⟩ := List.mem_map.1 hB
    exact ⟨f a, List.mem_map.2 ⟨a, (List.mem_filter.1 ha).1, rfl⟩, hxB⟩
  · rintro ⟨B, hB, hxB⟩
    obtain ⟨a, ha, rfl⟩ := List.mem_map.1 hB
    exact ⟨f a, List.mem_map.2 ⟨a, List.mem_filter.2 ⟨ha, by simpa using hx a ha hxB⟩, rfl⟩, hxB⟩

/-- The assignments of one clause. -/
def Clause.sat (m : Clause String) : Set Asg := {ω | ∀ p ∈ m, p.2.holds ω}

theorem Clause.sat_eq (m : Clause String) : Clause.sat m = Factor.set [m] := by ext ω; simp [Clause.sat, Factor.set]
theorem Clause.measurable_sat (m : Clause String) : MeasurableSet (Clause.sat m) := by rw [Clause.sat_eq]; exact Factor.measurable_set
theorem Factor.set_eq (F : Factor) : Factor.set F = {ω | ∃ B ∈ F.map Clause.sat, ω ∈ B} := by ext ω; simp [Factor.set, Clause.sat]

/-- The probability of a clause under a product. -/
theorem prodConj_ok (hc : c.Correct) {n : ℕ} {cs : List Spe} (hs : (Spe.prod cs).WF c L μ) {m : Clause String} (hm : ClauseInv (· ∈ (Spe.prod cs).atomSyms) m) {p : ℝ}
    (h : conjProb c (Spe.symbolsL cs) (Spe.probMemL c L n cs) [m] = .ok p) : p = ((Spe.prod cs).den μ).real (Clause.sat m) := by
  cases hs with
  | @prod _ h1 hne hd =>
  have e : Clause.sat m = {ω | ∀ m' ∈ [m], ∀ p ∈ m', p.2.holds ω} := by ext ω; simp [Clause.sat]
  rw [e]
  simp only [Spe.den]
  refine conjProb_ok (A := (· ∈ (Spe.prod cs).atomSyms)) hd (by rw [Spe.symbolsL_eq, Spe.denL_eq]; simp) ?_ ?_ ?_ h
  · intro m hm
    rw [Spe.denL_eq] at hm
    obtain ⟨s, hs, rfl⟩ := List.mem_map.1 hm
    exact (h1 s hs).prob
  · intro m' hm'
    rw [List.mem_singleton.1 hm']
    exact hm.ev
  · intro i hi hi' f hf cl p hne hcl hsub hp
    rw [Spe.probMemL_eq, List.getElem?_map] at hf
    have hi2 : i < cs.length := by rw [Spe.symbolsL_eq] at hi; simpa using hi
    rw [List.getElem?_eq_getElem hi2] at hf
    simp only [Option.map_some, Option.some.injEq] at hf
    subst hf
    have hsi : (Spe.symbolsL cs)[i] = (cs[i]).symbols := by simp [Spe.symbolsL_eq]
    have hdi : (Spe.denL μ cs)[i] = (cs[i]).den μ := by simp [Spe.denL_eq]
    have hmem : cs[i] ∈ cs := List.getElem_mem _
    have hFi : FactorOK (· ∈ (cs[i]).atomSyms) (cs[i]).symbols [cl] := by
      have : FactorOK (· ∈ (Spe.prod cs).atomSyms) (cs[i]).symbols [cl] :=
        ⟨by simp, by simpa using hne, by simpa using hcl, by
          intro m hm q hq
          rw [List.mem_singleton.1 hm] at hq
          rw [← hsi]; exact hsub q hq⟩
      exact this.mono (fun x hx => Spe.mem_atomSymsL.2 ⟨_, hmem, hx⟩)
    rw [probMem_ok hc _ (h1 _ hmem) [cl] hFi hp, hdi]
    congr 1
    ext ω; simp [Factor.set]

/-! ## Sums -/

theorem filter_zip3 {ws ps : List ℝ} {cs : List Spe} {g : Spe → ℝ} {f : Spe → Factor → Res Spe} (hps : ps = cs.map g) (hl : cs.length = ws.length) :
    ((ws.zip ps).zip (cs.map f)).filter (fun r => r.1.2 ≠ 0) =
      ((ws.zip cs).filter (fun t => g t.2 ≠ 0)).map (fun t => ((t.1, g t.2), f t.2)) := by
  subst hps
  induction cs generalizing ws with
  | nil => simp
  | cons s cs ih =>
    cases ws with
    | nil => simp at hl
    | cons w ws =>
      simp only [List.map_cons, List.zip_cons_cons, List.filter_cons]
      rw [ih (by simpa using hl)]
      split <;> rfl

theorem filter_map_comm {α β : Type} {p : α → Bool} {q : β → Bool} {f : α → β} {l : List α} (h : ∀ a ∈ l, p a = q (f a)) :
    (l.filter p).map f = (l.map f).filter q := by
  induction l with
  | nil => rfl
  | cons a l ih =>
    have := h a (by simp)
    simp only [List.filter_cons, List.map_cons, ← this]
    split <;> simp [ih (fun b hb => h b (by simp [hb]))]

theorem condSum_ok {F : Factor} {cs : List Spe} {ws ps : List ℝ} {s' : Spe} {f : Spe → Factor → Res Spe} (hs : (Spe.sum cs ws).WF c L μ)
    (hpos : ∀ w ∈ ws, 0 < w) (hps : ps = cs.map (fun s => (s.den μ).real (Factor.set F)))
    (hf : ∀ s ∈ cs, ∀ s', f s F = .ok s' → CondOK c L μ s s' (Factor.set F))
    (h : condSum ws ps (cs.map f) F = .ok s') : CondOK c L μ (.sum cs ws) s' (Factor.set F) := by
  have hAm : MeasurableSet (Factor.set F) := Factor.measurable_set
  have hwf := hs
  cases hs with
  | @sum _ _ S h1 hne hl hw hsum hS =>
  have hsym : (Spe.sum cs ws).symbols = S := Spe.symbols_sum hne hS
  unfold condSum at h
  simp only at h
  rw [filter_zip3 hps hl] at h
  set G := (ws.zip cs).filter (fun t => (t.2.den μ).real (Factor.set F) ≠ 0) with hG
  split at h; · cases h
  rename_i hgne
  have hGne : G ≠ [] := by intro h; simp [h] at hgne
  simp only [bind, Except.bind] at h
  split at h; · cases h
  rename_i children hch
  have hGmem : ∀ t ∈ G, t.1 ∈ ws ∧ t.2 ∈ cs ∧ (t.2.den μ) (Factor.set F) ≠ 0 := by
    rintro ⟨w, s⟩ ht
    obtain ⟨h1', h2'⟩ := List.mem_filter.1 ht
    have := (h1 s (List.of_mem_zip h1').2).prob
    exact ⟨(List.of_mem_zip h1').1, (List.of_mem_zip h1').2, real_ne_zero.1 (by simpa using h2')⟩
  rw [List.mapM_map] at hch
  have hF2 := mapM_ok hch
  have hall : List.Forall₂ (fun t s' => CondOK c L μ t.2 s' (Factor.set F)) G children := by
    have : ∀ {l : List (ℝ × Spe)} {r : List Spe}, (∀ t ∈ l, t ∈ G) → List.Forall₂ (fun a b => f a.2 F = .ok b) l r →
        List.Forall₂ (fun t s' => CondOK c L μ t.2 s' (Factor.set F)) l r := by
      intro l r hsub hlr
      induction hlr with
      | nil => exact .nil
      | cons h _ ih => exact .cons (hf _ (hGmem _ (hsub _ (by simp))).2.1 _ h) (ih (fun t ht => hsub t (by simp [ht])))
    exact this (fun _ h => h) hF2
  have hden : children.map (Spe.den μ) = G.map (fun t => (t.2.den μ)[|Factor.set F]) := by
    have : ∀ {l : List (ℝ × Spe)} {r : List Spe}, List.Forall₂ (fun t s' => CondOK c L μ t.2 s' (Factor.set F)) l r →
        r.map (Spe.den μ) = l.map (fun t => (t.2.den μ)[|Factor.set F]) := by
      intro l r hlr
      induction hlr with
      | nil => rfl
      | cons h _ ih => simp [h.den, ih]
    exact this hall
  -- the mass of the event
  set ts : List (ℝ × Measure Asg) := (ws.zip cs).map (fun t => (t.1, t.2.den μ)) with hts
  have hts1 : ts.map Prod.fst = ws := by
    rw [hts, List.map_map]
    show (ws.zip cs).map Prod.fst = ws
    exact List.map_fst_zip (by omega)
  have hts2 : ts.map Prod.snd = cs.map (Spe.den μ) := by
    rw [hts, List.map_map]
    have : (Prod.snd ∘ fun t : ℝ × Spe => (t.1, t.2.den μ)) = Spe.den μ ∘ Prod.snd := rfl
    rw [this, ← List.map_map, List.map_snd_zip (by omega)]
  have hsden : (Spe.sum cs ws).den μ = mixG (ts.map Prod.fst) (ts.map Prod.snd) := by
    rw [hts1, hts2]; simp only [Spe.den, Spe.denL_eq]; rfl
  have hGt : ts.filter (fun t => t.2.real (Factor.set F) ≠ 0) = G.map (fun t => (t.1, t.2.den μ)) := by
    rw [hG, hts]; symm; exact filter_map_comm (fun a _ => rfl)
  have hprob := hwf.prob
  have hmass : 0 < ((ts.filter (fun t => t.2.real (Factor.set F) ≠ 0)).map (fun t => t.2.real (Factor.set F) * t.1)).sum := by
    rw [hGt, List.map_map]
    refine List.sum_pos _ ?_ (by simpa using hGne)
    intro x hx
    obtain ⟨t, ht, rfl⟩ := List.mem_map.1 hx
    obtain ⟨g1, g2, g3⟩ := hGmem t ht
    have := (h1 t.2 g2).prob
    exact mul_pos (real_pos g3) (hpos _ g1)
  have hmix := cond_mix hAm ts (by
    intro t ht
    obtain ⟨t', ht', rfl⟩ := List.mem_map.1 ht
    exact hw _ (List.of_mem_zip ht').1) (by
    intro t ht
    obtain ⟨t', ht', rfl⟩ := List.mem_map.1 ht
    have := (h1 _ (List.of_mem_zip ht').2).prob
    simp only; infer_instance) hmass
  rw [← hsden, hGt, List.map_map, List.map_map] at hmix
  have hm0 : (Spe.sum cs ws).den μ (Factor.set F) ≠ 0 := by
    intro h0
    obtain ⟨t, ht⟩ := List.exists_mem_of_ne_nil _ hGne
    obtain ⟨g1, g2, g3⟩ := hGmem t ht
    rw [hsden, mixG_apply] at h0
    rw [List.sum_eq_zero_iff] at h0
    have htz : (t.1, t.2.den μ) ∈ ts := List.mem_map.2 ⟨t, (List.mem_filter.1 ht).1, rfl⟩
    have := h0 (ENNReal.ofReal t.1 * (t.2.den μ) (Factor.set F)) (by
      rw [List.zipWith_map, List.zipWith_self, List.mem_map]
      exact ⟨_, htz, rfl⟩)
    rw [mul_eq_zero] at this
    rcases this with h | h
    · have := hpos _ g1
      rw [ENNReal.ofReal_eq_zero] at h; linarith
    · exact g3 h
  have hwpos := pnorm_ok (l := G.map (fun t => (t.2.den μ).real (Factor.set F) * t.1)) (by
    intro x hx
    obtain ⟨t, ht, rfl⟩ := List.mem_map.1 hx
    obtain ⟨g1, g2, g3⟩ := hGmem t ht
    have := (h1 t.2 g2).prob
    exact mul_pos (real_pos g3) (hpos _ g1)) (by simpa using hGne)
  have hatom : ∀ s ∈ cs, s.atomSyms ⊆ (Spe.sum cs ws).atomSyms := by
    intro s hs x hx
    simp only [Spe.atomSyms]
    exact Spe.mem_atomSymsL.2 ⟨s, hs, hx⟩
  split at h
  · rename_i s1
    cases h
    cases hGc : G with
    | nil => exact absurd hGc hGne
    | cons t G' =>
      rw [hGc] at hall
      cases hall with
      | cons h2 h3 =>
      cases h3
      have ht : t ∈ G := by rw [hGc]; simp
      obtain ⟨g1, g2, g3⟩ := hGmem t ht
      refine ⟨h2.wf, by rw [h2.syms, hS _ g2, hsym], h2.atoms.trans (hatom _ g2), hm0, ?_, ?_⟩
      · rw [h2.den, ← hmix, hGc]
        have := (h1 t.2 g2).prob
        have hp : (t.2.den μ).real (Factor.set F) * t.1 ≠ 0 := (mul_pos (real_pos g3) (hpos _ g1)).ne'
        simp [pnorm, mixG, hp]
      · intro E hE
        cases hE with
        | sum e1 _ => exact h2.ready E (e1 _ g2)
  · rename_i hns
    rw [List.map_map] at h
    have hcw : ∀ s' ∈ children, ∃ t ∈ G, CondOK c L μ t.2 s' (Factor.set F) := fun s' hs' => forall₂_mem_right hall hs'
    obtain ⟨m1, m2, m3, m4, -, m5, -, m6⟩ := mkSum_ok (c := c) (L := L) (μ := μ) (fun t ht => by
      obtain ⟨u, -, hu⟩ := hcw t ht; exact hu.wf) (fun w hw => (hwpos.1 w hw).le) h
    refine ⟨m1, ?_, ?_, hm0, ?_, ?_⟩
    · obtain ⟨t, ht⟩ := List.exists_mem_of_ne_nil _ m5
      obtain ⟨u, hu, hok⟩ := hcw t ht
      rw [← m2 t ht, hok.syms, hS _ (hGmem u hu).2.1, hsym]
    · intro x hx
      obtain ⟨t, ht, hx⟩ := Spe.mem_atomSymsL.1 (m4 hx)
      obtain ⟨u, hu, hok⟩ := hcw t ht
      exact hatom _ (hGmem u hu).2.1 (hok.atoms hx)
    · rw [m3, hden, ← hmix, mixture_eq]; rfl
    · intro E hE
      cases hE with
      | sum e1 e2 =>
      refine m6 E ?_ hwpos.1
      intro t ht
      obtain ⟨u, hu, hok⟩ := hcw t ht
      exact hok.ready E (e1 _ (hGmem u hu).2.1)

/-! ## Products -/

theorem zipWith_groups {cs ds : List Spe} {Bs : List (Set Asg)} (h : List.Forall₂ (fun s d => d.symbols = s.symbols) cs ds) 
    (h2 : ds.map (Spe.den μ) = List.zipWith (fun s B => (s.den μ)[|B]) cs Bs) (hl : cs.length = Bs.length) :
    groups μ ds = List.zipWith (fun q B => (q.1, q.2[|B])) (groups μ cs) Bs := by
  induction h generalizing Bs with
  | nil => cases Bs with
    | nil => rfl
    | cons => simp at hl
  | cons h1 h3 ih =>
    cases Bs with
    | nil => simp at hl
    | cons B Bs =>
      simp only [List.map_cons, List.zipWith_cons_cons, List.cons.injEq, groups] at h2 ⊢
      exact ⟨by rw [h1, h2.1], ih h2.2 (by simpa using hl)⟩

theorem condClause_ok {cs : List Spe} {f : Spe → Factor → Res Spe} (hs : (Spe.prod cs).WF c L μ) {m : Clause String}
    (hm : ClauseInv (· ∈ (Spe.prod cs).atomSyms) m) (hsub : ∀ q ∈ m, q.1 ∈ (Spe.prod cs).symbols)
    (hf : ∀ s ∈ cs, ∀ sub s', sub ≠ [] → ClauseInv (· ∈ s.atomSyms) sub → (∀ q ∈ sub, q.1 ∈ s.symbols) → f s [sub] = .ok s' → CondOK c L μ s s' (Clause.sat sub))
    {ds : List Spe} (h : condClause cs (cs.map f) m = .ok ds) {t : Spe} (ht : mkProd ds = .ok t) :
    CondOK c L μ (.prod cs) t (Clause.sat m) ∧ ∃ ds', t = .prod ds' := by
  have hwf := hs
  have hprob := hwf.prob
  cases hs with
  | @prod _ h1 hne hd =>
  have hz : cs.zip (cs.map f) = cs.map (fun s => (s, f s)) := by
    have : ∀ l : List Spe, l.zip (l.map f) = l.map (fun s => (s, f s)) := by
      intro l
      induction l with
      | nil => rfl
      | cons s l ih => simp [ih]
    exact this cs
  unfold condClause at h
  rw [hz, List.mapM_map] at h
  have hF2 := mapM_ok h
  set B : Spe → Set Asg := fun s => Clause.sat (m.filter (fun q => decide (q.1 ∈ s.symbols))) with hB
  have hone : ∀ s ∈ cs, ∀ d, (if m.filter (fun q => decide (q.1 ∈ s.symbols)) = [] then (.ok s : Res Spe) else f s [m.filter (fun q => decide (q.1 ∈ s.symbols))]) = .ok d →
      CondOK c L μ s d (B s) := by
    intro s hs d hd'
    have hp := (h1 s hs).prob
    split at hd'
    · rename_i he
      cases hd'
      have : B s = Set.univ := by simp only [hB, he]; simp [Clause.sat]
      rw [this]
      exact ⟨h1 s hs, rfl, fun _ h => h, by simp, (cond_univ' _).symm, fun _ h => h⟩
    · rename_i he
      refine hf s hs _ d he ?_ ?_ hd'
      · refine ⟨hm.nodup.sublist (List.Sublist.map _ List.filter_sublist), fun p hp => ?_⟩
        exact (hm.ev p (List.mem_filter.1 hp).1).mono (fun x hx => Spe.mem_atomSymsL.2 ⟨s, hs, hx⟩)
      · intro q hq; simpa using (List.mem_filter.1 hq).2
  have hall : List.Forall₂ (fun s d => CondOK c L μ s d (B s)) cs ds := by
    have : ∀ {l r : List Spe}, (∀ s ∈ l, s ∈ cs) → List.Forall₂ (fun s d => (if m.filter (fun q => decide (q.1 ∈ s.symbols)) = [] then (.ok s : Res Spe)
        else f s [m.filter (fun q => decide (q.1 ∈ s.symbols))]) = .ok d) l r → List.Forall₂ (fun s d => CondOK c L μ s d (B s)) l r := by
      intro l r hsub hlr
      induction hlr with
      | nil => exact .nil
      | cons h _ ih => exact .cons (hone _ (hsub _ (by simp)) _ h) (ih (fun s hs => hsub s (by simp [hs])))
    exact this (fun _ h => h) hF2
  have hdw : ∀ d ∈ ds, ∃ s ∈ cs, CondOK c L μ s d (B s) := fun d hd => forall₂_mem_right hall hd
  obtain ⟨m1, m2, m3, m4, m5, -, m6⟩ := mkProd_ok (c := c) (L := L) (μ := μ) (fun d hd => by obtain ⟨s, -, h⟩ := hdw d hd; exact h.wf) ht
  have hsyms : List.Forall₂ (fun s d => d.symbols = s.symbols) cs ds := hall.imp (fun _ _ h => h.syms)
  have hdens : ds.map (Spe.den μ) = List.zipWith (fun s B => (s.den μ)[|B]) cs (cs.map B) := by
    have : ∀ {l r : List Spe}, List.Forall₂ (fun s d => CondOK c L μ s d (B s)) l r →
        r.map (Spe.den μ) = List.zipWith (fun s B => (s.den μ)[|B]) l (l.map B) := by
      intro l r hlr
      induction hlr with
      | nil => rfl
      | cons h _ ih => simp only [List.map_cons, List.zipWith_cons_cons, h.den, ih]
    exact this hall
  have hgr := zipWith_groups hsyms hdens (by simp)
  have hset : Clause.sat m = {ω | ∀ B' ∈ cs.map B, ω ∈ B'} := by
    ext ω
    simp only [Clause.sat, Set.mem_setOf_eq, List.mem_map, forall_exists_index, and_imp, forall_apply_eq_imp_iff₂, hB, List.mem_filter, decide_eq_true_eq]
    constructor
    · intro h s _ q hq _; exact h q hq
    · intro h q hq
      obtain ⟨s, hs, hx⟩ := Spe.mem_symbols_prod.1 (hsub q hq)
      exact h s hs q hq hx
  have hFB : List.Forall₂ (fun q B => MeasurableSet B ∧ DepOn q.1 B ∧ q.2 B ≠ 0) (groups μ cs) (cs.map B) := by
    have : ∀ {l r : List Spe}, List.Forall₂ (fun s d => CondOK c L μ s d (B s)) l r →
        List.Forall₂ (fun q B => MeasurableSet B ∧ DepOn q.1 B ∧ q.2 B ≠ 0) (groups μ l) (l.map B) := by
      intro l r hlr
      induction hlr with
      | nil => exact .nil
      | @cons s d _ _ h _ ih =>
        refine .cons ⟨Clause.measurable_sat _, ?_, h.mass⟩ ih
        intro ω ω' hω
        show (∀ q ∈ _, _) ↔ (∀ q ∈ _, _)
        refine forall₂_congr (fun q hq => ?_)
        obtain ⟨hq1, hq2⟩ := List.mem_filter.1 hq
        exact (hm.ev q hq1).depOn (by simpa using hq2) ω ω' hω
    exact this hall
  have hdisj : ((groups μ cs).map Prod.fst).Pairwise Disjoint := by
    have e : (groups μ cs).map Prod.fst = cs.map Spe.symbols := by simp [groups]
    rw [e, ← Spe.symbolsL_eq]; exact hd
  refine ⟨⟨m1, ?_, ?_, ?_, ?_, ?_⟩, m5⟩
  · rw [m2]
    ext x
    rw [Spe.mem_symbols_prod, Spe.mem_symbols_prod]
    constructor
    · rintro ⟨d, hd, hx⟩
      obtain ⟨s, hs, h⟩ := hdw d hd
      exact ⟨s, hs, by rw [← h.syms]; exact hx⟩
    · rintro ⟨s, hs, hx⟩
      obtain ⟨d, hd, h⟩ := forall₂_mem_left hall hs
      exact ⟨d, hd, by rw [h.syms]; exact hx⟩
  · intro x hx
    obtain ⟨d, hd, hx⟩ := Spe.mem_atomSymsL.1 (m4 hx)
    obtain ⟨s, hs, h⟩ := hdw d hd
    simp only [Spe.atomSyms]
    exact Spe.mem_atomSymsL.2 ⟨s, hs, h.atoms hx⟩
  · rw [hset, den_prod, indep_all (groups_prob h1) hdisj (hFB.imp (fun _ _ h => ⟨h.1, h.2.1⟩))]
    rw [Ne, List.prod_eq_zero_iff]
    intro h0
    have : ∀ {l : List (Finset String × Measure Asg)} {r : List (Set Asg)}, List.Forall₂ (fun q B => MeasurableSet B ∧ DepOn q.1 B ∧ q.2 B ≠ 0) l r →
        (0 : ℝ≥0∞) ∉ List.zipWith (fun q B => q.2 B) l r := by
      intro l r hlr
      induction hlr with
      | nil => simp
      | cons h _ ih => simp only [List.zipWith_cons_cons, List.mem_cons, not_or]; exact ⟨fun h' => h.2.2 h'.symm, ih⟩
    exact this hFB h0
  · rw [m3, hset, den_prod, den_prod, hgr, indep_cond (groups_prob h1) hdisj hFB]
  · intro E hE
    cases hE with
    | prod e1 =>
    refine m6 E (fun d hd => ?_)
    obtain ⟨s, hs, h⟩ := hdw d hd
    exact h.ready E (e1 s hs)

theorem mkSum_prods {ts : List Spe} {ws : List ℝ} {s : Spe} (hp : ∀ t ∈ ts, ∃ ds, t = .prod ds) (h : mkSum ts ws = .ok s) : s = .sum ts ws := by
  unfold mkSum at h
  split at h; · cases h
  rename_i hlen
  push Not at hlen
  have e1 : ts.flatMap Spe.sumChildren = ts := by
    clear h hlen
    induction ts with
    | nil => rfl
    | cons t ts ih =>
      obtain ⟨ds, rfl⟩ := hp t (by simp)
      simp [Spe.sumChildren, ih (fun t ht => hp t (by simp [ht]))]
  have e2 : (ts.zip ws).flatMap (fun p => p.1.sumWeights p.2) = ws := by
    clear h e1
    induction ts generalizing ws with
    | nil => cases ws with
      | nil => rfl
      | cons => simp at hlen
    | cons t ts ih =>
      cases ws with
      | nil => simp at hlen
      | cons w ws =>
        obtain ⟨ds, rfl⟩ := hp t (by simp)
        rw [List.zip_cons_cons, List.flatMap_cons, ih (fun t ht => hp t (by simp [ht])) (by simpa using hlen)]
        rfl
  simp only [e1, e2] at h
  split at h; · cases h
  split at h; · cases h
  split at h
  · cases h; rfl
  · cases h

theorem condProd_ok (hc : c.Correct) {n : ℕ} {E : String → Env} {cs : List Spe} {F : Factor} {s' : Spe} {f : Spe → Factor → Res Spe} (hs : (Spe.prod cs).WF c L μ)
    (hE : (Spe.prod cs).Ready E)
    (hF : FactorOK (· ∈ (Spe.prod cs).atomSyms) (Spe.prod cs).symbols F)
    (hf : ∀ s ∈ cs, ∀ sub s', sub ≠ [] → ClauseInv (· ∈ s.atomSyms) sub → (∀ q ∈ sub, q.1 ∈ s.symbols) → f s [sub] = .ok s' → CondOK c L μ s s' (Clause.sat sub))
    (h : condProd c hash cs (Spe.probMemL c L n cs) (cs.map f) (Spe.probMem c L n (.prod cs) F) F = .ok s') :
    CondOK c L μ (.prod cs) s' (Factor.set F) := by
  have hprob := hs.prob
  set ν := (Spe.prod cs).den μ with hν
  unfold condProd at h
  simp only [bind, Except.bind] at h
  split at h; · cases h
  rename_i ps hps
  have hps' : ps = F.map (fun m => ν.real (Clause.sat m)) := mapM_map_eq hps (fun m hm p hp => prodConj_ok hc hs (hF.inv m hm) hp)
  split at h; · cases h
  rename_i q hq
  have hq' := probMem_ok hc _ hs F hF hq
  split at h; · cases h
  rename_i hsum
  push Not at hsum
  have hmS : ∀ B ∈ F.map Clause.sat, MeasurableSet B := by
    intro B hB; obtain ⟨m, -, rfl⟩ := List.mem_map.1 hB; exact Clause.measurable_sat m
  have hND : NullDisj ν (F.map Clause.sat) := by
    refine nullDisj_of_sum hmS ?_
    rw [List.map_map, ← Factor.set_eq, ← hq', ← hsum, hps']; rfl
  have hgood : (F.zip ps).filter (fun r => r.2 ≠ 0) = (F.filter (fun m => ν.real (Clause.sat m) ≠ 0)).map (fun m => (m, ν.real (Clause.sat m))) := by
    have e : F.zip ps = F.map (fun m => (m, ν.real (Clause.sat m))) := by
      rw [hps']; clear * -; induction F with
      | nil => rfl
      | cons i F ih => simp [ih]
    rw [e]; symm; exact filter_map_comm (fun _ _ => rfl)
  rw [hgood] at h
  set G := F.filter (fun m => ν.real (Clause.sat m) ≠ 0) with hG
  have hGm : ∀ m ∈ G, m ∈ F ∧ ν (Clause.sat m) ≠ 0 := by
    intro m hm
    obtain ⟨h1, h2⟩ := List.mem_filter.1 hm
    exact ⟨h1, real_ne_zero.1 (by simpa using h2)⟩
  split at h; · cases h
  rename_i hgne
  have hGne : G ≠ [] := by intro h; simp [h] at hgne
  split at h; · cases h
  rename_i childrens hch
  split at h; · cases h
  rename_i products hpr
  rw [List.mapM_map] at hch
  have hch' := mapM_ok hch
  have hpr' := mapM_ok hpr
  have hall : List.Forall₂ (fun m t => CondOK c L μ (.prod cs) t (Clause.sat m) ∧ ∃ ds', t = .prod ds') G products := by
    have : ∀ {l : List (Clause String)} {r : List (List Spe)} {ts : List Spe}, (∀ m ∈ l, m ∈ F) → List.Forall₂ (fun m ds => condClause cs (cs.map f) m = .ok ds) l r →
        List.Forall₂ (fun ds t => mkProd ds = .ok t) r ts →
        List.Forall₂ (fun m t => CondOK c L μ (.prod cs) t (Clause.sat m) ∧ ∃ ds', t = .prod ds') l ts := by
      intro l r ts hsub hlr hrt
      induction hlr generalizing ts with
      | nil => cases hrt; exact .nil
      | @cons m ds l r h1 h2 ih =>
        cases hrt with
        | cons h3 h4 =>
        have hmF := hsub m (by simp)
        exact .cons (condClause_ok hs (hF.inv m hmF) (hF.sub m hmF) hf h1 h3) (ih (fun m hm => hsub m (by simp [hm])) h4)
    exact this (fun m hm => (hGm m hm).1) hch' hpr'
  have hunion : ν[|{ω | ∃ B ∈ G.map Clause.sat, ω ∈ B}] = ν[|Factor.set F] := by
    rw [Factor.set_eq]
    refine cond_congr (measurable_exists ?_) (measurable_exists hmS) (drop_null (fun m _ => Clause.measurable_sat m))
    intro B hB; obtain ⟨m, -, rfl⟩ := List.mem_map.1 hB; exact Clause.measurable_sat m
  have hm0 : ν (Factor.set F) ≠ 0 := by
    obtain ⟨m, hm⟩ := List.exists_mem_of_ne_nil _ hGne
    obtain ⟨h1, h2⟩ := hGm m hm
    exact fun h0 => h2 (measure_mono_null (show Clause.sat m ⊆ Factor.set F from fun ω hω => ⟨m, h1, hω⟩) h0)
  have hpw : ∀ t ∈ products, ∃ m ∈ G, CondOK c L μ (.prod cs) t (Clause.sat m) ∧ ∃ ds', t = .prod ds' := fun t ht => forall₂_mem_right hall ht
  unfold condMix at h
  split at h
  · cases h
    cases hGc : G with
    | nil => exact absurd hGc hGne
    | cons m G' =>
      rw [hGc] at hall
      cases hall with
      | cons h2 h3 =>
      cases h3
      refine ⟨h2.1.wf, h2.1.syms, h2.1.atoms, hm0, ?_, h2.1.ready⟩
      rw [h2.1.den, ← hν, ← hunion, hGc]
      congr 1
      ext ω; simp
  · simp only [bind, Except.bind] at h
    split at h; · cases h
    rename_i s1 hs1
    have e1 := mkSum_prods (fun t ht => by obtain ⟨m, -, -, h⟩ := hpw t ht; exact h) hs1
    have hwpos := pnorm_ok (l := (G.map (fun m => (m, ν.real (Clause.sat m)))).map Prod.snd) (by
      intro x hx
      rw [List.map_map] at hx
      obtain ⟨m, hm, rfl⟩ := List.mem_map.1 hx
      exact real_pos (hGm m hm).2) (by simpa using hGne)
    obtain ⟨m1, m2, m3, m4, -, m5, -, m6⟩ := mkSum_ok (c := c) (L := L) (μ := μ) (fun t ht => by
      obtain ⟨u, -, hu, -⟩ := hpw t ht; exact hu.wf) (fun w hw => (hwpos.1 w hw).le) hs1
    subst e1
    have hsimp : ∃ t ts', products = t :: ts' := by
      cases products with
      | nil => exact absurd rfl m5
      | cons t ts => exact ⟨t, ts, rfl⟩
    obtain ⟨t, ts', rfl⟩ := hsimp
    obtain ⟨mt, hmt, hokt, ds, rfl⟩ := hpw t (by simp)
    have hsimp : simplifySumProduct (Spe.prod ds :: ts') (pnorm ((G.map (fun m => (m, ν.real (Clause.sat m)))).map Prod.snd)) = .ok s' := by
      unfold simplifySum at h
      simp only at h
      rw [if_neg (show ¬ (Spe.isLeaf (Spe.prod ds) = true) by simp [Spe.isLeaf, Spe.leafEnv])] at h
      exact h
    have hready : ∀ E, (Spe.prod cs).Ready E → (Spe.sum (Spe.prod ds :: ts') (pnorm ((G.map (fun m => (m, ν.real (Clause.sat m)))).map Prod.snd))).Ready E := by
      intro E hE
      refine m6 E (fun t ht => ?_) hwpos.1
      obtain ⟨u, -, hu, -⟩ := hpw t ht
      exact hu.ready E hE
    obtain ⟨z1, z2, z3, z4, -⟩ := simplifySumProduct_ok m1 (hready E hE) hsimp
    refine ⟨z1, ?_, ?_, hm0, ?_, fun E hE => (simplifySumProduct_ok m1 (hready E hE) hsimp).2.2.2.2⟩
    · rw [z2, ← m2 (Spe.prod ds) (by simp), hokt.syms]
    · intro x hx
      obtain ⟨t, ht, hx⟩ := Spe.mem_atomSymsL.1 (m4 (z3 hx))
      obtain ⟨u, -, hu, -⟩ := hpw t ht
      exact hu.atoms hx
    · have hdens : (Spe.prod ds :: ts').map (Spe.den μ) = (G.map Clause.sat).map (fun B => ν[|B]) := by
        have : ∀ {l : List (Clause String)} {r : List Spe}, List.Forall₂ (fun m t => CondOK c L μ (.prod cs) t (Clause.sat m) ∧ ∃ ds', t = .prod ds') l r →
            r.map (Spe.den μ) = (l.map Clause.sat).map (fun B => ν[|B]) := by
          intro l r hlr
          induction hlr with
          | nil => rfl
          | cons h _ ih => simp only [List.map_cons, h.1.den, ih, ← hν]
        exact this hall
      rw [z4, m3, hdens, ← hunion, mixture_eq, ← mix_cond]
      · rw [List.map_map, List.map_map, List.map_map]; rfl
      · intro B hB; obtain ⟨m, -, rfl⟩ := List.mem_map.1 hB; exact Clause.measurable_sat m
      · exact hND.sublist (List.Sublist.map _ List.filter_sublist)
      · intro B hB; obtain ⟨m, hm, rfl⟩ := List.mem_map.1 hB; exact (hGm m hm).2
      · simpa using hGne

/-! ## Factored events -/

theorem condMem_ok (hc : c.Correct) {n : ℕ} {E : String → Env} : ∀ s : Spe, s.WF c L μ → s.Ready E → ∀ (F : Factor), FactorOK (· ∈ s.atomSyms) s.symbols F → ∀ {s' : Spe},
    s.condMem c L hash n F = .ok s' → CondOK c L μ s s' (Factor.set F) := by
  have leaf : ∀ s : Spe, s.isLeaf = true → s.WF c L μ → ∀ (F : Factor), FactorOK (· ∈ s.atomSyms) s.symbols F → ∀ {s' : Spe},
      (do let e ← factorEvent c F; leafCond c L n s e) = .ok s' → CondOK c L μ s s' (Factor.set F) := by
    intro s hl hs F hF s' h
    simp only [bind, Except.bind] at h
    split at h; · cases h
    rename_i e he
    obtain ⟨h1, h2, h3⟩ := leafEvOK_factor hl hF he
    rw [← h3]
    exact leafCond_ok hc hs h1 (Filter.Eventually.of_forall h2) h
  refine Spe.ind ?_ ?_ ?_ ?_ ?_
  · intro k X d supp cond env hs _ F hF s' h
    rw [Spe.condMem] at h
    exact leaf _ rfl hs F hF h
  · intro X v env hs _ F hF s' h
    rw [Spe.condMem] at h
    exact leaf _ rfl hs F hF h
  · intro X dist hs _ F hF s' h
    rw [Spe.condMem] at h
    exact leaf _ rfl hs F hF h
  · intro cs ws ih hs hE F hF s' h
    rw [Spe.condMem] at h
    simp only [bind, Except.bind] at h
    split at h; · cases h
    rename_i ps hps
    have hwf := hs
    cases hs with
    | @sum _ _ S h1 hne hl hw hsum hS =>
    cases hE with
    | sum e1 e2 =>
    have hFs : ∀ s ∈ cs, FactorOK (· ∈ s.atomSyms) s.symbols F := by
      intro s hs
      have := hF.mono (A' := (· ∈ s.atomSyms)) (fun x hx => Spe.mem_atomSymsL.2 ⟨s, hs, hx⟩)
      rw [Spe.symbols_sum hne hS] at this
      rw [hS s hs]; exact this
    have hps' : ps = cs.map (fun s => (s.den μ).real (Factor.set F)) := by
      rw [callAll, Spe.probMemL_eq, List.mapM_map] at hps
      exact mapM_map_eq hps (fun s hs p hp => probMem_ok hc s (h1 s hs) F (hFs s hs) hp)
    rw [Spe.condMemL_eq] at h
    exact condSum_ok hwf e2 hps' (fun s hs s' hs' => ih s hs (h1 s hs) (e1 s hs) F (hFs s hs) hs') h
  · intro cs ih hs hE F hF s' h
    rw [Spe.condMem, Spe.condMemL_eq] at h
    refine condProd_ok hc hs hE hF ?_ h
    intro s hs' sub s1 hne hinv hsub h1
    rw [Clause.sat_eq]
    cases hs with
    | prod w1 _ _ =>
    cases hE with
    | prod e1 =>
    exact ih s hs' (w1 s hs') (e1 s hs') [sub] ⟨by simp, by simpa using hne, by simpa using hinv, by simpa using hsub⟩ h1

/-! ## The public method -/

theorem Ev.suits_all {ω : Asg} {e : Ev} : e.Suits ω ↔ e.All (Ev.Suits ω) := by
  induction e using Ev.ind with
  | lit e t h => exact (Ev.all_lit h).symm
  | or es ih => rw [Ev.all_or, Ev.Suits, Ev.suitsL_iff]; exact forall₂_congr ih
  | and es ih => rw [Ev.all_and, Ev.Suits, Ev.suitsL_iff]; exact forall₂_congr ih

theorem Ev.suits_wk {ω : Asg} {e : Ev} (h : e.Suits ω) : e.All (WK ω) ∧ ∀ s ∈ e.symbols, ω s ≠ none := by
  rw [Ev.suits_all] at h
  constructor
  · refine h.mono ?_
    intro l t hl hs
    cases l with
    | ivl => exact hs
    | fin t v => cases v with
      | none => trivial
      | some v => exact hs
    | nom => exact hs
    | or => simp [Ev.basic?] at hl
    | and => simp [Ev.basic?] at hl
  · have := (h.and' ((Ev.symbols_all (A := e.symbols)).1 (le_refl _)))
    have key : ∀ {e : Ev}, e.All (Ev.Suits ω) → ∀ s ∈ e.symbols, ω s ≠ none := by
      intro e
      induction e using Ev.ind with
      | lit e t ht =>
        intro h s hs
        rw [Ev.all_lit ht] at h
        rw [symbols_of_basic ht] at hs
        cases e with
        | ivl t' i => simp only [Ev.basic?, Option.some.injEq] at ht; subst ht; obtain ⟨x, hx⟩ := h s hs; simp [hx]
        | fin t' v =>
          simp only [Ev.basic?, Option.some.injEq] at ht; subst ht
          cases v with
          | none => exact h s hs
          | some v => obtain ⟨x, hx⟩ := h s hs; simp [hx]
        | nom t' v =>
          simp only [Ev.basic?, Option.some.injEq] at ht; subst ht
          obtain ⟨k, x, rfl, hx⟩ := h
          simp only [Tr.symbols, Finset.mem_singleton] at hs
          subst hs; simp [hx]
        | or => simp [Ev.basic?] at ht
        | and => simp [Ev.basic?] at ht
      | or es ih =>
        intro h s hs
        rw [Ev.symbols, Ev.mem_symbolsL] at hs
        obtain ⟨e, he, hs⟩ := hs
        exact ih e he (Ev.all_or.1 h e he) s hs
      | and es ih =>
        intro h s hs
        rw [Ev.symbols, Ev.mem_symbolsL] at hs
        obtain ⟨e, he, hs⟩ := hs
        exact ih e he (Ev.all_and.1 h e he) s hs
    exact key h

theorem dropNull_ok (hc : c.Correct) {n : ℕ} {s : Spe} (hs : s.WF c L μ) {e d d' : Ev} (hN : NormOK c e d) (hsym : e.symbols ⊆ s.symbols)
    (hA : d.All (NumOn (· ∈ s.atomSyms))) (h : dropNull c L n s d = .ok d') :
    d'.IsDnf ∧ (∀ P, d.All P → d'.All P) ∧ d'.Valid ∧ (∀ ω, d.IsClause ∨ d.Typed ω → d'.IsClause ∨ d'.Typed ω) ∧ ∀ᵐ ω ∂(s.den μ), d'.holds ω ↔ d.holds ω := by
  have hprob := hs.prob
  have triv : d' = d → d'.IsDnf ∧ (∀ P, d.All P → d'.All P) ∧ d'.Valid ∧ (∀ ω, d.IsClause ∨ d.Typed ω → d'.IsClause ∨ d'.Typed ω) ∧ ∀ᵐ ω ∂(s.den μ), d'.holds ω ↔ d.holds ω := by
    rintro rfl
    exact ⟨hN.dnf, fun P h => h, Ev.Made.valid _ hN.made, fun _ h => h, by simp⟩
  cases d with
  | ivl => simp only [dropNull, Except.ok.injEq] at h; exact triv h.symm
  | fin => simp only [dropNull, Except.ok.injEq] at h; exact triv h.symm
  | nom => simp only [dropNull, Except.ok.injEq] at h; exact triv h.symm
  | and => simp only [dropNull, Except.ok.injEq] at h; exact triv h.symm
  | or es =>
    clear triv
    simp only [dropNull, bind, Except.bind] at h
    split at h; · cases h
    rename_i Fs hFs
    split at h; · cases h
    rename_i ps hps
    have hdv : ∀ x ∈ es, x.Valid := by
      have := Ev.Made.valid _ hN.made
      cases this with | or _ h => exact h
    obtain ⟨g1, g2⟩ := normOK_set hN
    have hps' : ps = es.map (fun x => (s.den μ).real x.set) := by
      have h1 := mapM_ok hFs
      have h2 := mapM_ok hps
      have hall : ∀ x ∈ es, ∀ F p, dnfFactor1 c x = .ok F → s.probMem c L n F = .ok p → p = (s.den μ).real x.set := by
        intro x hx F p hF hp
        obtain ⟨hF1, hF2⟩ := factor_ok (hdv x hx) (Ev.all_or.1 g2 x hx) (Ev.all_or.1 hA x hx) hF
        rw [probMem_ok hc s hs F (hF1.widen (?_ : x.symbols ⊆ s.symbols)) hp, hF2]
        refine Finset.Subset.trans ?_ (g1.trans hsym)
        intro k hk
        rw [Ev.symbols, Ev.mem_symbolsL]
        exact ⟨x, hx, hk⟩
      have : ∀ {l : List Ev} {Fs : List Factor} {ps : List ℝ}, (∀ x ∈ l, x ∈ es) → List.Forall₂ (fun x F => dnfFactor1 c x = .ok F) l Fs →
          List.Forall₂ (fun F p => s.probMem c L n F = .ok p) Fs ps → ps = l.map (fun x => (s.den μ).real x.set) := by
        intro l Fs ps hl h1 h2
        induction h1 generalizing ps with
        | nil => cases h2; rfl
        | cons h _ ih =>
          cases h2 with
          | cons h3 h4 =>
          rw [List.map_cons, hall _ (hl _ (by simp)) _ _ h h3, ih (fun x hx => hl x (by simp [hx])) h4]
      exact this (fun _ h => h) h1 h2
    have hgood : ((es.zip ps).filter (fun r => r.2 ≠ 0)).map Prod.fst = es.filter (fun x => (s.den μ).real x.set ≠ 0) := by
      have e : es.zip ps = es.map (fun x => (x, (s.den μ).real x.set)) := by
        rw [hps']; clear * -; induction es with
        | nil => rfl
        | cons i F ih => simp [ih]
      rw [e, ← filter_map_comm (p := fun x => decide ((s.den μ).real x.set ≠ 0)) (fun _ _ => rfl), List.map_map]
      exact List.map_id _
    split at h; · cases h
    rename_i hgne
    cases h
    rw [hgood]
    have hGne : es.filter (fun x => (s.den μ).real x.set ≠ 0) ≠ [] := by
      rw [← hgood]; simpa using hgne
    have hmem : ∀ x ∈ es.filter (fun x => (s.den μ).real x.set ≠ 0), x ∈ es := fun x hx => (List.mem_filter.1 hx).1
    refine ⟨⟨hGne, fun x hx => hN.dnf.2 x (hmem x hx)⟩, fun P h => Ev.all_or.2 (fun x hx => Ev.all_or.1 h x (hmem x hx)),
      .or hGne (fun x hx => hdv x (hmem x hx)), ?_, ?_⟩
    · rintro ω (h | h)
      · exact h.elim
      · right
        rw [Ev.Typed, Ev.typedL_iff] at h ⊢
        exact fun x hx => h x (hmem x hx)
    · filter_upwards [drop_null (ν := s.den μ) (l := es) (f := Ev.set) (fun x _ => Ev.measurable_set x)] with ω hω
      simpa [Ev.set] using hω

theorem condition_ok (hc : c.Correct) {n : ℕ} {E : String → Env} {s : Spe} (hs : s.WF c L μ) (hE : s.Ready E) {e : Ev} (he : s.CanAsk c e)
    (hsym : e.symbols ⊆ s.symbols) (hr : ∀ᵐ ω ∂(s.den μ), e.Regular ω) (hk : s.isLeaf = true ∨ ∀ᵐ ω ∂(s.den μ), e.Suits ω) {s' : Spe}
    (h : s.condition c L hash n e = .ok s') : CondOK c L μ s s' e.set := by
  have branch : e.Made c → e.NomFree s.atomSyms → s.isLeaf = false → CondOK c L μ s s' e.set := by
    intro hm hn hl
    replace hk : ∀ᵐ ω ∂(s.den μ), e.Suits ω := by
      rcases hk with h | h
      · simp [hl] at h
      · exact h
    unfold Spe.condition at h
    rw [if_neg (by simp [hl])] at h
    simp only [bind, Except.bind] at h
    split at h; · cases h
    rename_i o ho
    obtain ⟨h1, h2⟩ := dnfNormalize_ok hc hm ho
    cases o with
    | none => cases h
    | some d =>
      simp only at h
      split at h; · cases h
      rename_i d' hd'
      split at h; · cases h
      rename_i g hg
      split at h; · cases h
      rename_i F hF
      obtain ⟨hN, hT⟩ := h2 d rfl
      obtain ⟨g1, g2⟩ := normOK_set hN
      have hnum := dnfNormalize_num hc hm ho ((nomFree_iff e).1 hn)
      obtain ⟨k1, k2, k3, k4, k5⟩ := dropNull_ok hc hs hN hsym hnum hd'
      obtain ⟨v1, v2, v3⟩ := vars_made (c := c) k3 (k2 _ hN.vars)
      have hD := toDisjoint_ok hc n k1 v1 v2 hg
      obtain ⟨t1, t2, t3⟩ := toDisjoint_num hc n v1 v2 (k2 _ g2) (k2 _ hnum) hg
      obtain ⟨hF1, hF2⟩ := factor_ok t1 t2 t3 hF
      have hdsym : d'.symbols ⊆ s.symbols := by
        refine Finset.Subset.trans ?_ (g1.trans hsym)
        rw [Ev.symbols_all]
        exact k2 _ (Ev.symbols_all.1 (le_refl _))
      have H := condMem_ok hc s hs hE F (hF1.widen (hD.symbols.trans hdsym)) h
      rw [hF2] at H
      have hae : ∀ᵐ ω ∂(s.den μ), ω ∈ g.set ↔ ω ∈ e.set := by
        filter_upwards [hr, hk, k5] with ω hω hs h5
        obtain ⟨w1, w2⟩ := Ev.suits_wk hs
        show g.holds ω ↔ e.holds ω
        rw [← hN.holds ω hω, ← h5]
        exact ⟨hD.sound ω (v3 ω), hD.complete ω (v3 ω) (k4 ω (hT ω w1 w2))⟩
      refine ⟨H.wf, H.syms, H.atoms, ?_, ?_, H.ready⟩
      · intro h0; exact H.mass (by rw [← h0]; exact measure_congr (by filter_upwards [hae] with ω hω; exact propext hω))
      · rw [H.den]; exact cond_congr (Ev.measurable_set _) (Ev.measurable_set _) hae
  have leaf : s.isLeaf = true → LeafEvOK c s e → CondOK c L μ s s' e.set := by
    intro hl hev
    unfold Spe.condition at h
    rw [if_pos hl] at h
    exact leafCond_ok hc hs hev hr h
  cases s with
  | real => exact leaf rfl he
  | atomic => exact leaf rfl he
  | nominal => exact leaf rfl he
  | sum cs ws => exact branch he.1 he.2 rfl
  | prod cs => exact branch he.1 he.2 rfl

end Sppl
