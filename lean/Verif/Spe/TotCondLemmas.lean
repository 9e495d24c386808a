import Verif.Spe.TotProbLemmas
import Verif.Spe.TotSimpLemmas
import Verif.Spe.TotCondLeaf

set_option linter.all false

/-!
# `condition_mem` never raises on clauses of basic events about base variables (helper lemmas)
-/

namespace Sppl
open Classical MeasureTheory
open scoped ENNReal ProbabilityTheory

variable {c : Ctx} {L : Lib} {μ : Dist → Measure ℝ} {hash : Spe → ℤ}

/-- The part of the clause about one child has positive probability if the clause has. -/
theorem prod_sat_ne {cs : List Spe} (hs : (Spe.prod cs).WF c L μ) {m : Clause String} (hm : ClauseInv (· ∈ (Spe.prod cs).atomSyms) m) (hsub : ∀ q ∈ m, q.1 ∈ (Spe.prod cs).symbols)
    (h : (Spe.prod cs).den μ (Clause.sat m) ≠ 0) : ∀ s ∈ cs, s.den μ (Clause.sat (m.filter (fun q => decide (q.1 ∈ s.symbols)))) ≠ 0 := by
  cases hs with
  | @prod _ h1 hne hd =>
  set B : Spe → Set Asg := fun s => Clause.sat (m.filter (fun q => decide (q.1 ∈ s.symbols))) with hB
  have hset : Clause.sat m = {ω | ∀ B' ∈ cs.map B, ω ∈ B'} := by
    ext ω
    simp only [Clause.sat, Set.mem_setOf_eq, List.mem_map, forall_exists_index, and_imp, forall_apply_eq_imp_iff₂, hB, List.mem_filter, decide_eq_true_eq]
    constructor
    · intro h s _ q hq _; exact h q hq
    · intro h q hq
      obtain ⟨s, hs, hx⟩ := Spe.mem_symbols_prod.1 (hsub q hq)
      exact h s hs q hq hx
  have hFB : List.Forall₂ (fun q B => MeasurableSet B ∧ DepOn q.1 B) (groups μ cs) (cs.map B) := by
    have : ∀ l : List Spe, List.Forall₂ (fun q B => MeasurableSet B ∧ DepOn q.1 B) (groups μ l) (l.map B) := by
      intro l
      induction l with
      | nil => exact .nil
      | cons s l ih =>
        refine .cons ⟨Clause.measurable_sat _, ?_⟩ ih
        intro ω ω' hω
        show (∀ q ∈ _, _) ↔ (∀ q ∈ _, _)
        refine forall₂_congr (fun q hq => ?_)
        obtain ⟨hq1, hq2⟩ := List.mem_filter.1 hq
        exact (hm.ev q hq1).depOn (by simpa using hq2) ω ω' hω
    exact this cs
  have hdisj : ((groups μ cs).map Prod.fst).Pairwise Disjoint := by
    have e : (groups μ cs).map Prod.fst = cs.map Spe.symbols := by simp [groups]
    rw [e, ← Spe.symbolsL_eq]; exact hd
  rw [hset, den_prod, indep_all (groups_prob h1) hdisj hFB, Ne, List.prod_eq_zero_iff] at h
  intro s hs h0
  apply h
  have e : List.zipWith (fun q B => q.2 B) (groups μ cs) (cs.map B) = cs.map (fun s => (s.den μ) (B s)) := by
    clear * -
    induction cs with
    | nil => rfl
    | cons s l ih => simp only [groups, List.map_cons, List.zipWith_cons_cons] at ih ⊢; rw [ih]
  rw [e]
  exact List.mem_map.2 ⟨s, hs, h0⟩

theorem condSum_total {F : Factor} {cs : List Spe} {ws ps : List ℝ} {f : Spe → Factor → Res Spe} (hs : (Spe.sum cs ws).WF c L μ)
    (hpos : ∀ w ∈ ws, 0 < w) (hps : ps = cs.map (fun s => (s.den μ).real (Factor.set F)))
    (hf : ∀ s ∈ cs, ∀ s', f s F = .ok s' → CondOK c L μ s s' (Factor.set F))
    (ht : ∀ s ∈ cs, s.den μ (Factor.set F) ≠ 0 → ∃ s', f s F = .ok s') (hm : (Spe.sum cs ws).den μ (Factor.set F) ≠ 0) : ∃ s', condSum ws ps (cs.map f) F = .ok s' := by
  have hAm : MeasurableSet (Factor.set F) := Factor.measurable_set
  cases hs with
  | @sum _ _ S h1 hne hl hw hsum hS =>
  unfold condSum
  simp only
  rw [filter_zip3 hps hl]
  set G := (ws.zip cs).filter (fun t => (t.2.den μ).real (Factor.set F) ≠ 0) with hG
  have hGmem : ∀ t ∈ G, t.1 ∈ ws ∧ t.2 ∈ cs ∧ (t.2.den μ) (Factor.set F) ≠ 0 := by
    rintro ⟨w, s⟩ ht
    obtain ⟨h1', h2'⟩ := List.mem_filter.1 ht
    have := (h1 s (List.of_mem_zip h1').2).prob
    exact ⟨(List.of_mem_zip h1').1, (List.of_mem_zip h1').2, real_ne_zero.1 (by simpa using h2')⟩
  have hGne : G ≠ [] := by
    intro h0
    apply hm
    have : ∀ᵐ ω ∂((Spe.sum cs ws).den μ), ω ∉ Factor.set F := by
      simp only [Spe.den]
      rw [Spe.denL_eq]
      refine mixture_ae ?_
      intro m hm'
      obtain ⟨s, hs, rfl⟩ := List.mem_map.1 hm'
      have hp := (h1 s hs).prob
      obtain ⟨i, hi, rfl⟩ := List.getElem_of_mem hs
      have hz : (ws[i]'(by omega), cs[i]) ∈ ws.zip cs := by
        rw [List.mem_iff_getElem]
        exact ⟨i, by simp; omega, by simp⟩
      have hn : (ws[i]'(by omega), cs[i]) ∉ G := by rw [h0]; simp
      rw [hG, List.mem_filter] at hn
      have h00 : ((cs[i]).den μ).real (Factor.set F) = 0 := by
        by_contra hcon
        exact hn ⟨hz, by simpa using hcon⟩
      have : ((cs[i]).den μ) (Factor.set F) = 0 := by
        by_contra hcon; exact (real_ne_zero.2 hcon) h00
      rw [ae_iff]
      simpa using this
    rw [ae_iff] at this
    simpa using this
  rw [if_neg (by simpa using hGne)]
  rw [List.mapM_map]
  obtain ⟨children, hch, hlen, hall⟩ := mapM_total (P := fun s' => s'.WF c L μ ∧ s'.symbols = S) (l := G) (f := fun t => f t.2 F) (by
    intro t htG
    obtain ⟨g1, g2, g3⟩ := hGmem t htG
    obtain ⟨s', hs'⟩ := ht t.2 g2 g3
    have := hf t.2 g2 s' hs'
    exact ⟨s', hs', this.wf, by rw [this.syms, hS _ g2]⟩)
  have hch' : List.mapM ((fun r : (ℝ × ℝ) × (Factor → Res Spe) => r.2 F) ∘ fun t : ℝ × Spe => ((t.1, (t.2.den μ).real (Factor.set F)), f t.2)) G = .ok children := hch
  simp only [bind, Except.bind]
  rw [hch']
  simp only
  split
  · exact ⟨_, rfl⟩
  · have hwpos := pnorm_ok (l := G.map (fun t => (t.2.den μ).real (Factor.set F) * t.1)) (by
      intro x hx
      obtain ⟨t, ht, rfl⟩ := List.mem_map.1 hx
      obtain ⟨g1, g2, g3⟩ := hGmem t ht
      have := (h1 t.2 g2).prob
      exact mul_pos (real_pos g3) (hpos _ g1)) (by simpa using hGne)
    rw [List.map_map]
    refine mkSum_total (c := c) (L := L) (μ := μ) (fun t ht => (hall t ht).1) ?_ hwpos.2 (fun s hs t ht => by rw [(hall s hs).2, (hall t ht).2])
    rw [hlen]; simp [pnorm]

theorem condClause_total {cs : List Spe} {f : Spe → Factor → Res Spe} (hs : (Spe.prod cs).WF c L μ) {m : Clause String}
    (hok : ∀ s ∈ cs, ∀ sub s', sub ≠ [] → sub = m.filter (fun q => decide (q.1 ∈ s.symbols)) → f s [sub] = .ok s' → CondOK c L μ s s' (Clause.sat sub))
    (ht : ∀ s ∈ cs, ∀ sub, sub ≠ [] → sub = m.filter (fun q => decide (q.1 ∈ s.symbols)) → ∃ s', f s [sub] = .ok s') :
    ∃ ds t, condClause cs (cs.map f) m = .ok ds ∧ mkProd ds = .ok t := by
  cases hs with
  | @prod _ h1 hne hd =>
  have hz : cs.zip (cs.map f) = cs.map (fun s => (s, f s)) := by
    have : ∀ l : List Spe, l.zip (l.map f) = l.map (fun s => (s, f s)) := by
      intro l
      induction l with
      | nil => rfl
      | cons s l ih => simp [ih]
    exact this cs
  obtain ⟨ds, hds⟩ : ∃ ds, condClause cs (cs.map f) m = .ok ds := by
    unfold condClause
    rw [hz, List.mapM_map]
    have key : ∀ g : Spe → Res Spe, (∀ s ∈ cs, ∃ s', g s = .ok s') → ∃ ds, cs.mapM g = .ok ds := by
      intro g hg
      obtain ⟨r, hr, -⟩ := mapM_total (P := fun _ => True) (l := cs) (f := g) (fun s hs => by obtain ⟨s', h⟩ := hg s hs; exact ⟨s', h, trivial⟩)
      exact ⟨r, hr⟩
    refine key _ ?_
    intro s hs
    simp only [Function.comp]
    by_cases he : m.filter (fun q => decide (q.1 ∈ s.symbols)) = []
    · rw [if_pos he]; exact ⟨_, rfl⟩
    · rw [if_neg he]; exact ht s hs _ he rfl
  have hF2 : List.Forall₂ (fun s d => d.WF c L μ ∧ d.symbols = s.symbols) cs ds := by
    have hds' := hds
    unfold condClause at hds'
    rw [hz, List.mapM_map] at hds'
    have hF2 := mapM_ok hds'
    have : ∀ {l r : List Spe}, (∀ s ∈ l, s ∈ cs) → List.Forall₂ (fun s d => (if m.filter (fun q => decide (q.1 ∈ s.symbols)) = [] then (.ok s : Res Spe)
        else f s [m.filter (fun q => decide (q.1 ∈ s.symbols))]) = .ok d) l r → List.Forall₂ (fun s d => d.WF c L μ ∧ d.symbols = s.symbols) l r := by
      intro l r hsub hlr
      induction hlr with
      | nil => exact .nil
      | @cons s d l r h _ ih =>
        refine .cons ?_ (ih (fun s hs => hsub s (by simp [hs])))
        have hmem := hsub s (by simp)
        split at h
        · cases h; exact ⟨h1 s hmem, rfl⟩
        · rename_i he
          have := hok s hmem _ d he rfl h
          exact ⟨this.wf, this.syms⟩
    exact this (fun _ h => h) hF2
  have hsy : ds.map Spe.symbols = cs.map Spe.symbols := by
    clear * - hF2
    induction hF2 with
    | nil => rfl
    | cons h _ ih => simp [h.2, ih]
  obtain ⟨t, ht'⟩ := mkProd_total (c := c) (L := L) (μ := μ) (cs := ds) (fun d hd => by
    obtain ⟨s, -, h⟩ := forall₂_mem_right hF2 hd; exact h.1) (by
      rintro rfl; exact hne (List.forall₂_nil_right_iff.1 hF2)) (by rw [hsy, ← Spe.symbolsL_eq]; exact hd)
  exact ⟨ds, t, hds, ht'⟩

theorem condProd_total (hc : c.Correct) {n : ℕ} {E : String → Env} {cs : List Spe} {F : Factor} {f : Spe → Factor → Res Spe} (hs : (Spe.prod cs).WF c L μ)
    (hE : (Spe.prod cs).Ready E)
    (hF : FactorOK (· ∈ (Spe.prod cs).atomSyms) (Spe.prod cs).symbols F)
    (hp : ∀ m ∈ F, ∃ p, conjProb c (Spe.symbolsL cs) (Spe.probMemL c L n cs) [m] = .ok p) (hq : ∃ q, Spe.probMem c L n (.prod cs) F = .ok q)
    (hdisj : F.Pairwise (fun a b => Disjoint (Clause.sat a) (Clause.sat b))) (hmass : (Spe.prod cs).den μ (Factor.set F) ≠ 0)
    (hf : ∀ s ∈ cs, ∀ sub s', sub ≠ [] → ClauseInv (· ∈ s.atomSyms) sub → (∀ q ∈ sub, q.1 ∈ s.symbols) → f s [sub] = .ok s' → CondOK c L μ s s' (Clause.sat sub))
    (ht : ∀ m ∈ F, ∀ s ∈ cs, ∀ sub, sub ≠ [] → sub = m.filter (fun q => decide (q.1 ∈ s.symbols)) → s.den μ (Clause.sat sub) ≠ 0 → ∃ s', f s [sub] = .ok s') :
    ∃ s', condProd c hash cs (Spe.probMemL c L n cs) (cs.map f) (Spe.probMem c L n (.prod cs) F) F = .ok s' := by
  have hprob := hs.prob
  set ν := (Spe.prod cs).den μ with hν
  obtain ⟨ps, hps, -⟩ := mapM_total (P := fun _ => True) (l := F) (f := fun m => conjProb c (Spe.symbolsL cs) (Spe.probMemL c L n cs) [m]) (fun m hm => by
    obtain ⟨p, h⟩ := hp m hm; exact ⟨p, h, trivial⟩)
  have hps' : ps = F.map (fun m => ν.real (Clause.sat m)) := mapM_map_eq hps (fun m hm p hp => prodConj_ok hc hs (hF.inv m hm) hp)
  obtain ⟨q, hq⟩ := hq
  have hq' := probMem_ok hc _ hs F hF hq
  have hmS : ∀ B ∈ F.map Clause.sat, MeasurableSet B := by
    intro B hB; obtain ⟨m, -, rfl⟩ := List.mem_map.1 hB; exact Clause.measurable_sat m
  have hND : NullDisj ν (F.map Clause.sat) := by
    unfold NullDisj
    rw [List.pairwise_map]
    exact hdisj.imp (fun h => by rw [Set.disjoint_iff_inter_eq_empty.1 h]; simp)
  have hsum : ps.sum = q := by
    have := real_sum hmS hND
    rw [List.map_map, ← Factor.set_eq, ← hq', ] at this
    rw [hps', ← this]; rfl
  have hgood : (F.zip ps).filter (fun r => r.2 ≠ 0) = (F.filter (fun m => ν.real (Clause.sat m) ≠ 0)).map (fun m => (m, ν.real (Clause.sat m))) := by
    have e : F.zip ps = F.map (fun m => (m, ν.real (Clause.sat m))) := by
      rw [hps']; clear * -; induction F with
      | nil => rfl
      | cons i F ih => simp [ih]
    rw [e]; symm; exact filter_map_comm (fun _ _ => rfl)
  unfold condProd
  simp only [bind, Except.bind, hps, hq]
  rw [if_neg (by simpa using hsum), hgood]
  set G := F.filter (fun m => ν.real (Clause.sat m) ≠ 0) with hG
  have hGm : ∀ m ∈ G, m ∈ F ∧ ν (Clause.sat m) ≠ 0 := by
    intro m hm
    obtain ⟨h1, h2⟩ := List.mem_filter.1 hm
    exact ⟨h1, real_ne_zero.1 (by simpa using h2)⟩
  have hGne : G ≠ [] := by
    intro h0
    apply hmass
    rw [Factor.set_eq]
    have : {ω : Asg | ∃ B ∈ F.map Clause.sat, ω ∈ B} = ⋃ m ∈ {m | m ∈ F}, Clause.sat m := by ext ω; simp
    rw [this, measure_biUnion_null_iff (List.finite_toSet F).countable]
    intro m hm
    by_contra hcon
    have : m ∈ G := List.mem_filter.2 ⟨hm, by simpa using real_ne_zero.2 hcon⟩
    rw [h0] at this; simp at this
  rw [if_neg (by simpa using hGne)]
  have hcl : ∀ m ∈ G, ∃ ds t, condClause cs (cs.map f) m = .ok ds ∧ mkProd ds = .ok t := by
    intro m hm
    obtain ⟨hmF, hm0⟩ := hGm m hm
    have hinv : ∀ s ∈ cs, ClauseInv (· ∈ s.atomSyms) (m.filter (fun q => decide (q.1 ∈ s.symbols))) := by
      intro s hs'
      refine ⟨(hF.inv m hmF).nodup.sublist (List.Sublist.map _ List.filter_sublist), fun p hp => ?_⟩
      exact ((hF.inv m hmF).ev p (List.mem_filter.1 hp).1).mono (fun x hx => Spe.mem_atomSymsL.2 ⟨s, hs', hx⟩)
    refine condClause_total hs ?_ ?_
    · intro s hs' sub s' hne he h
      refine hf s hs' sub s' hne (by rw [he]; exact hinv s hs') ?_ h
      intro q hq; rw [he] at hq; simpa using (List.mem_filter.1 hq).2
    · intro s hs' sub hne he
      exact ht m hmF s hs' sub hne he (by rw [he]; exact prod_sat_ne hs (hF.inv m hmF) (hF.sub m hmF) hm0 s hs')
  rw [List.mapM_map]
  obtain ⟨childrens, hch, hlen1, hprd⟩ := mapM_total (P := fun ds => ∃ m ∈ G, condClause cs (cs.map f) m = .ok ds ∧ ∃ t, mkProd ds = .ok t) (l := G) (f := fun m => condClause cs (cs.map f) m) (by
    intro m hm
    obtain ⟨ds, t, h1, h2⟩ := hcl m hm
    exact ⟨ds, h1, m, hm, h1, t, h2⟩)
  have hch' : List.mapM ((fun r : Clause String × ℝ => condClause cs (cs.map f) r.1) ∘ fun m => (m, ν.real (Clause.sat m))) G = .ok childrens := hch
  rw [hch']
  simp only
  obtain ⟨products, hpr, hlen2, hpr'⟩ := mapM_total (P := fun t => ∃ m ∈ G, CondOK c L μ (.prod cs) t (Clause.sat m) ∧ ∃ ds', t = .prod ds') (l := childrens) (f := mkProd) (by
    intro ds hds
    obtain ⟨m, hm, h1, t, h2⟩ := hprd ds hds
    obtain ⟨hmF, hm0⟩ := hGm m hm
    exact ⟨t, h2, m, hm, condClause_ok hs (hF.inv m hmF) (hF.sub m hmF) hf h1 h2⟩)
  rw [hpr]
  simp only
  unfold condMix
  split
  · exact ⟨_, rfl⟩
  · have hwpos := pnorm_ok (l := (G.map (fun m => (m, ν.real (Clause.sat m)))).map Prod.snd) (by
      intro x hx
      rw [List.map_map] at hx
      obtain ⟨m, hm, rfl⟩ := List.mem_map.1 hx
      exact real_pos (hGm m hm).2) (by simpa using hGne)
    obtain ⟨s1, hs1⟩ := mkSum_total (c := c) (L := L) (μ := μ) (cs := products) (ws := pnorm ((G.map (fun m => (m, ν.real (Clause.sat m)))).map Prod.snd))
      (fun t ht => by obtain ⟨m, -, h, -⟩ := hpr' t ht; exact h.wf) (by rw [hlen2, hlen1]; simp [pnorm]) hwpos.2 (by
        intro s hs t ht
        obtain ⟨m, -, h, -⟩ := hpr' s hs
        obtain ⟨m', -, h', -⟩ := hpr' t ht
        rw [h.syms, h'.syms])
    have e1 := mkSum_prods (fun t ht => by obtain ⟨m, -, -, h⟩ := hpr' t ht; exact h) hs1
    obtain ⟨m1, m2, m3, m4, -, m5, -, m6⟩ := mkSum_ok (c := c) (L := L) (μ := μ) (fun t ht => by
      obtain ⟨u, -, hu, -⟩ := hpr' t ht; exact hu.wf) (fun w hw => (hwpos.1 w hw).le) hs1
    simp only [bind, Except.bind, hs1]
    subst e1
    have hr := m6 E (fun t ht => by obtain ⟨u, -, hu, -⟩ := hpr' t ht; exact hu.ready E hE) hwpos.1
    exact simplifySum_total m1 hr hwpos.2 (fun t ht => by obtain ⟨m, -, -, h⟩ := hpr' t ht; exact h)

/-! ## Factored events -/

/-- The clause compares the symbols of discrete leaves with integers. -/
def WholeClause (s : Spe) (m : Clause String) : Prop := ∀ p ∈ m, p.2.values.Within (s.Whole p.1)

theorem NotDisc.sum_child {k : String} {cs : List Spe} {ws : List ℝ} {s : Spe} (h : (Spe.sum cs ws).NotDisc k) (hs : s ∈ cs) : s.NotDisc k := by
  cases h with | sum h => exact h s hs

theorem NotDisc.prod_child {k : String} {cs : List Spe} {s : Spe} (h : (Spe.prod cs).NotDisc k) (hs : s ∈ cs) : s.NotDisc k := by
  cases h with | prod h => exact h s hs

theorem Piece.Within.mono {Q Q' : EReal → Prop} (h : ∀ x, Q x → Q' x) {p : Piece EReal} (hp : p.Within Q) : p.Within Q' := by
  cases p <;> simp_all [Piece.Within]

theorem SSet.Within.mono {Q Q' : EReal → Prop} (h : ∀ x, Q x → Q' x) {S : SSet EReal} (hS : S.Within Q) : S.Within Q' := by
  cases S with
  | empty => trivial
  | pc p => exact Piece.Within.mono h hS
  | un u => exact fun p hp => Piece.Within.mono h (hS p hp)

theorem WholeClause.sum_child {m : Clause String} {cs : List Spe} {ws : List ℝ} {s : Spe} (h : WholeClause (.sum cs ws) m) (hs : s ∈ cs) : WholeClause s m :=
  fun p hp => (h p hp).mono (fun x hx => hx.imp (fun h => NotDisc.sum_child h hs) id)

theorem WholeClause.prod_child {m : Clause String} {cs : List Spe} {s : Spe} (h : WholeClause (.prod cs) m) (hs : s ∈ cs) : WholeClause s m :=
  fun p hp => (h p hp).mono (fun x hx => hx.imp (fun h => NotDisc.prod_child h hs) id)

theorem LitClauseR.sum_child {R : String → Ev → Prop} {V : Finset String} {m : Clause String} {cs : List Spe} {ws : List ℝ} {s : Spe} (hm : LitClauseR R V (.sum cs ws) m)
    (hw : (Spe.sum cs ws).WF c L μ) (hs : s ∈ cs) : LitClauseR R V s m := by
  cases hw with
  | @sum _ _ S h1 hne hl hw hsum hS =>
  refine ⟨hm.ne, ⟨hm.inv.nodup, fun p hp => (hm.inv.ev p hp).mono (fun x hx => Spe.mem_atomSymsL.2 ⟨s, hs, hx⟩)⟩, hm.lit, ?_⟩
  intro p hp
  have := hm.sub p hp
  rw [Spe.symbols_sum hne hS] at this
  rw [hS s hs]; exact this

theorem LitClauseR.part {R : String → Ev → Prop} {V : Finset String} {m : Clause String} {cs : List Spe} {s : Spe} (hm : LitClauseR R V (.prod cs) m) (hs : s ∈ cs)
    (hne : m.filter (fun q => decide (q.1 ∈ s.symbols)) ≠ []) : LitClauseR R V s (m.filter (fun q => decide (q.1 ∈ s.symbols))) := by
  refine ⟨hne, ⟨hm.inv.nodup.sublist (List.Sublist.map _ List.filter_sublist), fun p hp => ?_⟩, ?_, ?_⟩
  · exact (hm.inv.ev p (List.mem_filter.1 hp).1).mono (fun x hx => Spe.mem_atomSymsL.2 ⟨s, hs, hx⟩)
  · intro p hp; exact hm.lit p (List.mem_filter.1 hp).1
  · intro p hp
    exact ⟨by simpa using (List.mem_filter.1 hp).2, (hm.sub p (List.mem_filter.1 hp).1).2⟩

theorem factorOK_of {R : String → Ev → Prop} {V : Finset String} {s : Spe} {F : Factor} (hne : F ≠ []) (h : ∀ m ∈ F, LitClauseR R V s m) : FactorOK (· ∈ s.atomSyms) s.symbols F :=
  ⟨hne, fun m hm => (h m hm).ne, fun m hm => (h m hm).inv, fun m hm p hp => ((h m hm).sub p hp).1⟩

/-- A sum, given its children. -/
theorem condMem_sum_total (hc : c.Correct) {R : String → Ev → Prop} {V : Finset String} {E : String → Env} {n : ℕ} {cs : List Spe} {ws : List ℝ} (hs : (Spe.sum cs ws).WF c L μ) (hE : (Spe.sum cs ws).Ready E)
    {F : Factor} (hne : F ≠ []) (hF : ∀ m ∈ F, LitClauseR R V (.sum cs ws) m) (hp : ∀ s ∈ cs, ∃ p, s.probMem c L n F = .ok p)
    (ih : ∀ s ∈ cs, s.den μ (Factor.set F) ≠ 0 → ∃ s', s.condMem c L hash n F = .ok s') (hm : (Spe.sum cs ws).den μ (Factor.set F) ≠ 0) :
    ∃ s', (Spe.sum cs ws).condMem c L hash n F = .ok s' := by
  have hFs : ∀ s ∈ cs, FactorOK (· ∈ s.atomSyms) s.symbols F := fun s hs' => factorOK_of hne (fun m hm => (hF m hm).sum_child hs hs')
  have h1 : ∀ s ∈ cs, s.WF c L μ := by cases hs with | sum h1 => exact h1
  cases hE with
  | sum e1 e2 =>
  rw [Spe.condMem]
  obtain ⟨ps, hps, -⟩ := mapM_total (P := fun _ => True) (l := cs) (f := fun s => s.probMem c L n F) (fun s hs => by
    obtain ⟨p, h⟩ := hp s hs; exact ⟨p, h, trivial⟩)
  have hps' : ps = cs.map (fun s => (s.den μ).real (Factor.set F)) := mapM_map_eq hps (fun s hs p hp => probMem_ok hc s (h1 s hs) F (hFs s hs) hp)
  have hcall : callAll (Spe.probMemL c L n cs) F = .ok ps := by
    rw [callAll, Spe.probMemL_eq, List.mapM_map]; exact hps
  simp only [hcall, bind, Except.bind]
  rw [Spe.condMemL_eq]
  exact condSum_total hs e2 hps' (fun s hs s' h => condMem_ok hc s (h1 s hs) (e1 s hs) F (hFs s hs) h) ih hm

/-- A product, given its children. -/
theorem condMem_prod_total (hc : c.Correct) {R : String → Ev → Prop} (hR : AddClosed c R) {V : Finset String} {E : String → Env} {n : ℕ} {cs : List Spe} (hs : (Spe.prod cs).WF c L μ) (hE : (Spe.prod cs).Ready E)
    (hone : ∀ s ∈ cs, ∀ m : Clause String, LitClauseR R V s m → ∃ p, s.probMem c L n [m] = .ok p)
    {F : Factor} (hne : F ≠ []) (hF : ∀ m ∈ F, LitClauseR R V (.prod cs) m) (hw : ∀ m ∈ F, WholeClause (.prod cs) m) (hdisj : F.Pairwise (fun a b => Disjoint (Clause.sat a) (Clause.sat b)))
    (ih : ∀ s ∈ cs, ∀ m, LitClauseR R V s m → WholeClause s m → s.den μ (Clause.sat m) ≠ 0 → ∃ s', s.condMem c L hash n [m] = .ok s')
    (hm : (Spe.prod cs).den μ (Factor.set F) ≠ 0) : ∃ s', (Spe.prod cs).condMem c L hash n F = .ok s' := by
  have h1 : ∀ s ∈ cs, s.WF c L μ := by cases hs with | prod h => exact h
  have e1 : ∀ s ∈ cs, s.Ready E := by cases hE with | prod h => exact h
  rw [Spe.condMem, Spe.condMemL_eq]
  refine condProd_total hc hs hE (factorOK_of hne hF) (fun m hm => prodConjs_total hR hone (by simpa using hF m hm)) (prodMem_total hc hR hs hone hF) hdisj hm ?_ ?_
  · intro s hs' sub s1 hne hinv hsub h
    rw [Clause.sat_eq]
    exact condMem_ok hc s (h1 s hs') (e1 s hs') [sub] ⟨by simp, by simpa using hne, by simpa using hinv, by simpa using hsub⟩ h
  · intro m hm s hs' sub hne he h0
    subst he
    refine ih s hs' _ ((hF m hm).part hs' hne) ?_ h0
    intro p hp
    exact (hw m hm).prod_child hs' p (List.mem_filter.1 hp).1

/-- A single clause, at any SPE, given the leaves. -/
theorem condMem_clause_gen (hc : c.Correct) {R : String → Ev → Prop} (hR : AddClosed c R) {V : Finset String} {E : String → Env} {n : ℕ} {B : Spe → Prop}
    (hB1 : ∀ cs ws, B (.sum cs ws) → ∀ s ∈ cs, B s) (hB2 : ∀ cs, B (.prod cs) → ∀ s ∈ cs, B s)
    (hprob : ∀ s : Spe, s.WF c L μ → B s → ∀ m : Clause String, LitClauseR R V s m → ∃ p, s.probMem c L n [m] = .ok p)
    (leaf : ∀ s : Spe, ∀ X env, s.leafEnv = some (X, env) → s.WF c L μ → B s → ∀ m : Clause String, LitClauseR R V s m → WholeClause s m → s.den μ (Clause.sat m) ≠ 0 →
      ∃ s', (factorEvent c [m] >>= fun e => leafCond c L n s e) = .ok s') :
    ∀ s : Spe, s.WF c L μ → s.Ready E → B s → ∀ m : Clause String, LitClauseR R V s m → WholeClause s m →
    s.den μ (Clause.sat m) ≠ 0 → ∃ s', s.condMem c L hash n [m] = .ok s' := by
  refine Spe.ind ?_ ?_ ?_ ?_ ?_
  · intro k X d supp cond env hs _ hb m hm
    rw [Spe.condMem]; exact leaf _ X env rfl hs hb m hm
  · intro X v env hs _ hb m hm
    rw [Spe.condMem]; exact leaf _ X env rfl hs hb m hm
  · intro X dist hs _ hb m hm
    rw [Spe.condMem]; exact leaf _ X _ rfl hs hb m hm
  · intro cs ws ih hs hE hb m hm hw h0
    have hbs := hB1 _ _ hb
    have h1 : ∀ s ∈ cs, s.WF c L μ := by cases hs with | sum h => exact h
    have e1 : ∀ s ∈ cs, s.Ready E := by cases hE with | sum h => exact h
    rw [Clause.sat_eq] at h0
    refine condMem_sum_total hc hs hE (by simp) (by simpa using hm) (fun s hs' => hprob s (h1 s hs') (hbs s hs') m (hm.sum_child hs hs')) ?_ h0
    intro s hs' h
    exact ih s hs' (h1 s hs') (e1 s hs') (hbs s hs') m (hm.sum_child hs hs') (hw.sum_child hs') (by rw [Clause.sat_eq]; exact h)
  · intro cs ih hs hE hb m hm hw h0
    have hbs := hB2 _ hb
    have h1 : ∀ s ∈ cs, s.WF c L μ := by cases hs with | prod h => exact h
    have e1 : ∀ s ∈ cs, s.Ready E := by cases hE with | prod h => exact h
    rw [Clause.sat_eq] at h0
    exact condMem_prod_total hc hR hs hE (fun s hs' m hm => hprob s (h1 s hs') (hbs s hs') m hm) (by simp) (by simpa using hm) (by simpa using hw) (by simp) (fun s hs' m' hm' hw' h => ih s hs' (h1 s hs') (e1 s hs') (hbs s hs') m' hm' hw' h) h0

/-- A single clause about base variables, at any SPE. -/
theorem condMem_clause_total (hc : c.Correct) {V : Finset String} {E : String → Env} {n : ℕ} : ∀ s : Spe, s.WF c L μ → s.Ready E → s.BaseOn V → ∀ m : Clause String, LitClause V s m → WholeClause s m →
    s.den μ (Clause.sat m) ≠ 0 → ∃ s', s.condMem c L hash n [m] = .ok s' := by
  refine condMem_clause_gen hc litRel_closed (fun cs ws h => by cases h with | sum h => exact h) (fun cs h => by cases h with | prod h => exact h) (probMem_clause_total hc) ?_
  intro s X env hl hs hb m hm hw h0
  have hsat := Clause.sat_eq m
  obtain ⟨l, hml, h1, h2, h3, h4⟩ := hm.leaf (c := c) hb hl
  obtain ⟨g1, g2, g3⟩ := leafEvOK_factor (by simp [Spe.isLeaf, hl]) hm.factorOK h4
  have hwl : l.values.Within (s.Whole X) := hw (X, l) (by rw [hml]; simp)
  obtain ⟨s', h⟩ := leafCond_total hc hs hl h2 h1 h3 g1 (Filter.Eventually.of_forall g2) hwl (by rw [g3, ← hsat]; exact h0)
  exact ⟨s', by simp only [h4, bind, Except.bind, h n]⟩

/-- Any factor of disjoint clauses, at an SPE whose paths of sums end in products. -/
theorem condMem_wide_total (hc : c.Correct) {V : Finset String} {E : String → Env} {n : ℕ} {s : Spe} (hw : s.Wide) : s.WF c L μ → s.Ready E → s.BaseOn V → ∀ F : Factor, F ≠ [] → (∀ m ∈ F, LitClause V s m) →
    (∀ m ∈ F, WholeClause s m) → F.Pairwise (fun a b => Disjoint (Clause.sat a) (Clause.sat b)) → s.den μ (Factor.set F) ≠ 0 → ∃ s', s.condMem c L hash n F = .ok s' := by
  revert hw
  refine Spe.ind (Q := fun s => s.Wide → s.WF c L μ → s.Ready E → s.BaseOn V → ∀ F : Factor, F ≠ [] → (∀ m ∈ F, LitClause V s m) →
    (∀ m ∈ F, WholeClause s m) → F.Pairwise (fun a b => Disjoint (Clause.sat a) (Clause.sat b)) → s.den μ (Factor.set F) ≠ 0 → ∃ s', s.condMem c L hash n F = .ok s') ?_ ?_ ?_ ?_ ?_ s
  · intro k X d supp cond env hw; cases hw
  · intro X v env hw; cases hw
  · intro X dist hw; cases hw
  · intro cs ws ih hwd hs hE hb F hne hF hw hd h0
    have hbs : ∀ s ∈ cs, s.BaseOn V := by cases hb with | sum h => exact h
    have h1 : ∀ s ∈ cs, s.WF c L μ := by cases hs with | sum h => exact h
    have e1 : ∀ s ∈ cs, s.Ready E := by cases hE with | sum h => exact h
    have hwd' : ∀ s ∈ cs, s.Wide := by cases hwd with | sum h => exact h
    refine condMem_sum_total hc hs hE hne hF (fun s hs' => probMem_wide_total hc (hwd' s hs') (h1 s hs') (hbs s hs') F (fun m hm => (hF m hm).sum_child hs hs')) ?_ h0
    intro s hs' h
    exact ih s hs' (hwd' s hs') (h1 s hs') (e1 s hs') (hbs s hs') F hne (fun m hm => (hF m hm).sum_child hs hs') (fun m hm => (hw m hm).sum_child hs') hd h
  · intro cs ih hwd hs hE hb F hne hF hw hd h0
    have hbs : ∀ s ∈ cs, s.BaseOn V := by cases hb with | prod h => exact h
    have h1 : ∀ s ∈ cs, s.WF c L μ := by cases hs with | prod h => exact h
    have e1 : ∀ s ∈ cs, s.Ready E := by cases hE with | prod h => exact h
    exact condMem_prod_total hc litRel_closed hs hE (fun s hs' m hm => probMem_clause_total hc s (h1 s hs') (hbs s hs') m hm) hne hF hw hd (fun s hs' m' hm' hw' h => condMem_clause_total hc s (h1 s hs') (e1 s hs') (hbs s hs') m' hm' hw' h) h0

end Sppl
