import Verif.Spe.DerivLeaf
import Verif.Spe.CurveLemmas

set_option linter.all false

/-!
# Conjunctions of comparisons, with derived variables (helper lemmas)
-/

namespace Sppl
open Classical MeasureTheory
open scoped ENNReal ProbabilityTheory

variable {c : Ctx} {L : Lib} {μ : Dist → Measure ℝ} {hash : Spe → ℤ} {Q : String → EReal → Prop} {T : String → Prop}

/-! ## Clauses with intervals and single numbers for the variables of `T` -/

/-- The factor is a basic event about its variable, with an interval or a single number for the variables of `T`. -/
def FlatRel (T : String → Prop) (k : String) (e : Ev) : Prop := e.basic? = some (.id k) ∧ (T k → e.ChainLit k)

theorem flatRel_land {k : String} {e f g : Ev} (he : FlatRel T k e) (hf : FlatRel T k f) (h : e.land c f = .ok g) : FlatRel T k g := by
  refine ⟨land_same he.1 hf.1 h, fun hT => ?_⟩
  obtain ⟨-, -, -, hV⟩ := (he.2 hT).flat
  obtain ⟨-, -, -, hW⟩ := (hf.2 hT).flat
  obtain ⟨r, hr, hfl⟩ := flat_and c.σ hV hW
  unfold Ev.land at h
  simp only [bind, Except.bind, Ev.simplify, he.1, hf.1, if_true, hr] at h
  cases hfl <;> (simp [Ev.ofSet] at h; subst h)
  · exact .empty .id
  · exact .ivl .id (by assumption)
  · exact .one .id

theorem flatRel_closed : AddClosed c (FlatRel T) := by
  intro k ev m m' hm he h
  rcases Clause.addAnd_ok h with ⟨h1, rfl⟩ | ⟨a, e', b, g, rfl, hg, rfl⟩
  · intro p hp
    rcases List.mem_append.1 hp with hp | hp
    · exact hm p hp
    · simp at hp; subst hp; exact he
  · intro p hp
    simp only [List.mem_append, List.mem_cons] at hp
    rcases hp with hp | rfl | hp
    · exact hm p (by simp [hp])
    · exact flatRel_land (hm (k, e') (by simp)) he hg
    · exact hm p (by simp [hp])

/-- The basic event is about a variable. -/
def FlatLit (T : String → Prop) (l : Ev) : Prop := ∃ k, FlatRel T k l

theorem factorLit_flat {d e : Ev} {p : String × Ev} (he : FlatLit T e) (h : factorLit (selfLookup d) e = .ok p) : FlatRel T p.1 p.2 := by
  obtain ⟨k, hk⟩ := he
  have hv := factorLit_var ⟨k, hk.1⟩ h
  obtain ⟨h1, -⟩ := factorLit_ok h
  rw [h1] at hv
  rw [hk.1] at hv; cases hv
  rw [h1]; exact hk

theorem factorLoop_flat {d : Ev} : ∀ (rest : List Ev) {m m' : Clause String}, (∀ p ∈ m, FlatRel T p.1 p.2) → (∀ e ∈ rest, FlatLit T e) →
    factorLoop c (selfLookup d) m rest = .ok m' → ∀ p ∈ m', FlatRel T p.1 p.2 := by
  intro rest
  induction rest with
  | nil => intro m m' hm _ h; simp [factorLoop, pure, Except.pure] at h; subst h; exact hm
  | cons e rest ih =>
    intro m m' hm hr h
    simp only [factorLoop, List.foldlM_cons, bind, Except.bind] at h
    split at h; · cases h
    rename_i m1 hm1
    split at hm1; · cases hm1
    rename_i p hp
    have h1 := factorLit_flat (hr e (by simp)) hp
    exact ih (flatRel_closed _ _ _ _ hm h1 hm1) (fun e he => hr e (by simp [he])) (by simpa [factorLoop, bind, Except.bind] using h)

theorem factorClause_flat {d e : Ev} (hcl : e.IsClause) (ha : e.All (FlatLit T)) {m : Clause String} (h : factorClause c (selfLookup d) e = .ok m) :
    ∀ p ∈ m, FlatRel T p.1 p.2 := by
  have lit : ∀ {e : Ev}, e.All (FlatLit T) → e.IsLit → (do
      let ke ← factorLit (selfLookup d) e
      .ok [ke]) = Except.ok m → ∀ p ∈ m, FlatRel T p.1 p.2 := by
    intro e ha hl h
    simp only [bind, Except.bind] at h
    split at h; · cases h
    rename_i p hp
    cases h
    obtain ⟨t, ht⟩ := Ev.isLit_iff.1 hl
    intro q hq
    simp at hq; subst hq
    exact factorLit_flat ((Ev.all_lit ht).1 ha) hp
  cases e with
  | or => exact False.elim hcl
  | and es =>
    simp only [factorClause] at h
    split at h
    · refine factorLoop_flat es (by simp) (fun e he => ?_) h
      obtain ⟨t, ht⟩ := Ev.isLit_iff.1 (hcl.2 e he)
      exact (Ev.all_lit ht).1 (Ev.all_and.1 ha e he)
    · cases h
  | ivl => exact lit ha (by simp [Ev.IsLit]) h
  | fin => exact lit ha (by simp [Ev.IsLit]) h
  | nom => exact lit ha (by simp [Ev.IsLit]) h

theorem dnfFactor1_clause {d : Ev} (hd : d.IsClause) {F : Factor} (h : dnfFactor1 c d = .ok F) : ∃ m, F = [m] ∧ factorClause c (selfLookup d) d = .ok m := by
  unfold dnfFactor1 dnfFactor at h
  split at h
  · exact False.elim hd
  · simp only [bind, Except.bind] at h
    split at h; · cases h
    rename_i m hm
    cases h; exact ⟨m, rfl, hm⟩

/-! ## Normalisation -/

theorem mixLit_flat {l : Ev} {k : String} (hb : l.basic? = some (.id k)) (h : MixLit Q T l) : FlatLit T l := by
  refine ⟨k, hb, fun hT => ?_⟩
  obtain ⟨k', h1, -, h3⟩ := h.symbol
  have hk : k' = k := by rw [symbols_of_basic hb] at h1; simpa [Tr.symbols] using h1.symm
  subst hk
  exact (h3 hT).2.1

theorem FullClause.solConj_eq {m : Clause String} (h : FullClause Q m) : Sppl.solConj c (m.map (fun p => (p.1, p.2.values))) = reduceM (Ev.land c) (m.map Prod.snd) := by
  have hm : (m.map (fun p => (p.1, p.2.values))).mapM (fun p => (Tr.id p.1).inSet c p.2) = .ok (m.map Prod.snd) := by
    have : ∀ m : Clause String, (∀ p ∈ m, p.2.basic? = some (.id p.1) ∧ p.2.values ≠ .empty) →
        (m.map (fun p => (p.1, p.2.values))).mapM (fun p => (Tr.id p.1).inSet c p.2) = .ok (m.map Prod.snd) := by
      intro m
      induction m with
      | nil => intro _; rfl
      | cons p m ih =>
        intro h
        rw [List.map_cons, List.mapM_cons, inSet_lit (h p (by simp)).1 (h p (by simp)).2, ih (fun p hp => h p (by simp [hp]))]
        rfl
    exact this m (fun p hp => ⟨h.lit p hp, (h.full p hp).2⟩)
  unfold Sppl.solConj
  simp only [hm, bind, Except.bind]

/-- `dnf_normalize` of a clause is a clause with intervals and single numbers for the variables of `T`. -/
theorem dnfNormalize_flat (hc : c.Correct) (hl : c.Linear) {e : Ev} (hv : e.Valid) (hcl : e.IsClause) (ha : e.All (MixLit Q T)) :
    ∃ N, ∀ n, N ≤ n → ∀ r, dnfNormalize c n e = .ok (some r) → r.IsClause ∧ r.All (FlatLit T) := by
  obtain ⟨d, hd1, hd2, hd3, hd4, hd5⟩ := Ev.toDnf_spec hv
  have hdc := toDnf_clause hcl hd1
  obtain ⟨m, hm, hf⟩ := factorClause_mix (c := c) (d := d) hdc (hd5 _ ha) (le_refl _)
  obtain ⟨N, m', k1, k2, k3⟩ := solveClause_mix (D := ∅) hc hl hd3 (hd5 _ ha) hm hf
  refine ⟨N, fun n hn r h => ?_⟩
  unfold dnfNormalize at h
  split at h
  · rename_i hid
    cases h
    obtain ⟨-, k, hk⟩ := isIdLit_spec hid
    exact ⟨hcl, .lit hk (mixLit_flat hk ((Ev.all_lit hk).1 ha))⟩
  · unfold normalizeBody at h
    simp only [hd1, bind, Except.bind] at h
    split at h; · cases h
    rename_i fs hfs
    obtain ⟨m0, rfl, hm0⟩ := dnfFactor1_clause hdc hfs
    rw [hm] at hm0; cases hm0
    split at h; · cases h
    rename_i sols hsols
    have hso : sols = [m'.map (fun p => (p.1, p.2.values))] := by
      rw [List.mapM_cons, k2 n hn] at hsols
      cases hsols; rfl
    subst hso
    split at h; · cases h
    split at h; · cases h
    rename_i conjs hconjs
    split at h; · cases h
    rename_i disj hdisj
    split at h; · cases h
    rename_i r' hr'
    cases h
    have hcon : ∀ g ∈ conjs, g.Valid ∧ g.IsClause ∧ g.All (FlatLit T) := by
      intro g hg
      obtain ⟨s, hs, hsg⟩ := forall₂_mem_right (mapM_ok hconjs) hg
      obtain ⟨hs1, hs2⟩ := List.mem_filter.1 (mem_dedupSols hs)
      simp at hs1; subst hs1
      have hfc : FullClause Q m' := ⟨k1.ne, k1.nodup, k1.lit, fun p hp => ⟨k1.plain p hp, by
        simp only [List.all_eq_true] at hs2
        have := hs2 (p.1, p.2.values) (List.mem_map_of_mem (f := fun p : String × Ev => (p.1, p.2.values)) hp)
        intro he
        rw [he] at this
        simp [SSet.isEmpty] at this⟩⟩
      obtain ⟨g', hg1, hg2, hg3, -⟩ := hfc.solConj (c := c)
      rw [hg1] at hsg; cases hsg
      refine ⟨hg2, hg3, ?_⟩
      have hred : reduceM (Ev.land c) (m'.map Prod.snd) = .ok g := by rw [← hfc.solConj_eq]; exact hg1
      refine (reduce_land_disj (P := FlatLit T) m' k1.nodup (fun p hp => .lit (k1.lit p hp) ⟨⟨p.1, k1.lit p hp, k3 p hp⟩, k1.lit p hp⟩) hred).mono (fun _ _ _ h => h.1)
    have hlen : conjs.length ≤ 1 := by
      rw [← (mapM_ok hconjs).length_eq]
      unfold dedupSols
      rw [List.length_map]
      refine (List.length_filter_le _ _).trans ?_
      rw [List.length_zipIdx]
      exact (List.length_filter_le _ _).trans (by simp)
    have hdj : disj.Valid ∧ disj.IsClause ∧ disj.All (FlatLit T) := by
      match conjs, hlen, hdisj, hcon with
      | [], _, hdisj, _ => simp [reduceM] at hdisj
      | [x], _, hdisj, hcon => simp [reduceM, pure, Except.pure] at hdisj; subst hdisj; exact hcon x (by simp)
    obtain ⟨q, q1, -, -, -, q5⟩ := Ev.toDnf_spec hdj.1
    rw [hr'] at q1; cases q1
    exact ⟨toDnf_clause hdj.2.1 hr', q5 _ hdj.2.2⟩

/-! ## Leaves -/

theorem Leaves.sum_inv {P : Spe → Prop} {cs : List Spe} {ws : List ℝ} (h : (Spe.sum cs ws).Leaves P) : ∀ s ∈ cs, s.Leaves P := by
  cases h with
  | leaf h => simp [Spe.isLeaf, Spe.leafEnv] at h
  | sum h => exact h

theorem Leaves.prod_inv {P : Spe → Prop} {cs : List Spe} (h : (Spe.prod cs).Leaves P) : ∀ s ∈ cs, s.Leaves P := by
  cases h with
  | leaf h => simp [Spe.isLeaf, Spe.leafEnv] at h
  | prod h => exact h

theorem Leaves.leaf_inv {P : Spe → Prop} {s : Spe} (h : s.Leaves P) (hl : s.isLeaf = true) : P s := by
  cases h with
  | leaf _ h => exact h
  | sum => simp [Spe.isLeaf, Spe.leafEnv] at hl
  | prod => simp [Spe.isLeaf, Spe.leafEnv] at hl

theorem bound_list {α : Type*} {P : ℕ → α → Prop} : ∀ {l : List α}, (∀ x ∈ l, ∃ N, ∀ n, N ≤ n → P n x) → ∃ N, ∀ n, N ≤ n → ∀ x ∈ l, P n x := by
  intro l
  induction l with
  | nil => intro _; exact ⟨0, by simp⟩
  | cons x l ih =>
    intro h
    obtain ⟨N1, h1⟩ := h x (by simp)
    obtain ⟨N2, h2⟩ := ih (fun y hy => h y (by simp [hy]))
    refine ⟨max N1 N2, fun n hn y hy => ?_⟩
    rcases List.mem_cons.1 hy with rfl | hy
    · exact h1 n (le_trans (le_max_left _ _) hn)
    · exact h2 n (le_trans (le_max_right _ _) hn) y hy

theorem Leaves.bound {P : Spe → Prop} {P' : ℕ → Spe → Prop} (h : ∀ s : Spe, s.isLeaf = true → s.WF c L μ → P s → ∃ N, ∀ n, N ≤ n → P' n s) :
    ∀ s : Spe, s.WF c L μ → s.Leaves P → ∃ N, ∀ n, N ≤ n → s.Leaves (P' n) := by
  have base : ∀ s : Spe, s.isLeaf = true → s.WF c L μ → s.Leaves P → ∃ N, ∀ n, N ≤ n → s.Leaves (P' n) := by
    intro s hl hs hb
    obtain ⟨N, hN⟩ := h s hl hs (Leaves.leaf_inv hb hl)
    exact ⟨N, fun n hn => .leaf hl (hN n hn)⟩
  refine Spe.ind (fun _ _ _ _ _ _ => base _ rfl) (fun _ _ _ => base _ rfl) (fun _ _ => base _ rfl) ?_ ?_
  · intro cs ws ih hs hb
    have h1 : ∀ s ∈ cs, s.WF c L μ := by cases hs with | sum h1 => exact h1
    obtain ⟨N, hN⟩ := bound_list (fun s hs' => ih s hs' (h1 s hs') (Leaves.sum_inv hb s hs'))
    exact ⟨N, fun n hn => .sum (hN n hn)⟩
  · intro cs ih hs hb
    have h1 : ∀ s ∈ cs, s.WF c L μ := by cases hs with | prod h1 => exact h1
    obtain ⟨N, hN⟩ := bound_list (fun s hs' => ih s hs' (h1 s hs') (Leaves.prod_inv hb s hs'))
    exact ⟨N, fun n hn => .prod (hN n hn)⟩

/-- The event of a clause at a leaf. -/
theorem factorEvent_flat {V : Finset String} {s : Spe} {m : Clause String} (hm : LitClauseR (FlatRel T) V s m) (hT : ∀ p ∈ m, T p.1) :
    ∃ e, factorEvent c [m] = .ok e ∧ e.AndOf (fun l => l.AnyLit ∧ ∃ k ∈ m.map Prod.fst, l.basic? = some (.id k)) := by
  have hv : ∀ e ∈ m.map Prod.snd, e.Valid := by
    intro e he
    obtain ⟨p, hp, rfl⟩ := List.mem_map.1 he
    exact (hm.inv.ev p hp).valid
  obtain ⟨g, hg, hgv⟩ := reduceM_land_total c (l := m.map Prod.snd) (by simpa using hm.ne) hv
  refine ⟨g, by
    simp only [factorEvent, List.mapM_cons, List.mapM_nil, hg, bind, Except.bind, pure, Except.pure]
    rfl, ?_⟩
  have hcl : g.IsClause := land_lits_clause (fun e he => by
    obtain ⟨p, hp, rfl⟩ := List.mem_map.1 he
    exact (Ev.isLit_iff.2 ⟨_, (hm.lit p hp).1⟩).clause) hg
  have hall := reduce_land_disj (P := Ev.AnyLit) m hm.inv.nodup (fun p hp => .lit (hm.lit p hp).1 ⟨?_, (hm.lit p hp).1⟩) hg
  · cases g with
    | or => exact False.elim hcl
    | and es =>
      refine .and hcl.1 (fun l hl => ?_)
      obtain ⟨t, ht⟩ := Ev.isLit_iff.1 (hcl.2 l hl)
      exact (Ev.all_lit ht).1 (Ev.all_and.1 hall l hl)
    | ivl => exact .lit ((Ev.all_lit rfl).1 hall)
    | fin => exact .lit ((Ev.all_lit rfl).1 hall)
    | nom => exact .lit ((Ev.all_lit rfl).1 hall)
  · exact ⟨p.1, (hm.lit p hp).2 (hT p hp)⟩

theorem LitClauseR.base {V : Finset String} {s : Spe} {m : Clause String} (hm : LitClauseR (FlatRel T) V s m) : LitClause V s m :=
  ⟨hm.ne, hm.inv, fun p hp => (hm.lit p hp).1, hm.sub⟩

/-- The leaf answers the event of a clause. -/
def LeafProbs (c : Ctx) (L : Lib) (T : String → Prop) (V : Finset String) (n : ℕ) (s : Spe) : Prop :=
  ∀ m : Clause String, LitClauseR (FlatRel T) V s m → ∃ p, (factorEvent c [m] >>= fun e => leafProb c L n s e) = .ok p

/-- The leaf can be conditioned on the event of a clause. -/
def LeafConds (c : Ctx) (L : Lib) (μ : Dist → Measure ℝ) (T : String → Prop) (V : Finset String) (n : ℕ) (s : Spe) : Prop :=
  ∀ m : Clause String, LitClauseR (FlatRel T) V s m → WholeClause s m → s.den μ (Clause.sat m) ≠ 0 → ∃ s', (factorEvent c [m] >>= fun e => leafCond c L n s e) = .ok s'

theorem leafProbs_base {V : Finset String} {s : Spe} {X : String} {env : Env} (hl : s.leafEnv = some (X, env)) (hs : s.WF c L μ) (hb : s.BaseOn V) (n : ℕ) : LeafProbs c L T V n s := by
  intro m hm
  obtain ⟨l, -, h1, h2, h3, h4⟩ := hm.base.leaf (c := c) hb hl
  obtain ⟨p, hp⟩ := leafProb_total hs hl h2 h1 h3
  exact ⟨p, by simp only [h4, bind, Except.bind, hp n]⟩

theorem leafConds_base (hc : c.Correct) {V : Finset String} {s : Spe} {X : String} {env : Env} (hl : s.leafEnv = some (X, env)) (hs : s.WF c L μ) (hb : s.BaseOn V) (n : ℕ) : LeafConds c L μ T V n s := by
  intro m hm hw h0
  have hsat := Clause.sat_eq m
  obtain ⟨l, hml, h1, h2, h3, h4⟩ := hm.base.leaf (c := c) hb hl
  obtain ⟨g1, g2, g3⟩ := leafEvOK_factor (by simp [Spe.isLeaf, hl]) hm.factorOK h4
  have hwl : l.values.Within (s.Whole X) := hw (X, l) (by rw [hml]; simp)
  obtain ⟨s', h⟩ := leafCond_total hc hs hl h2 h1 h3 g1 (Filter.Eventually.of_forall g2) hwl (by rw [g3, ← hsat]; exact h0)
  exact ⟨s', by simp only [h4, bind, Except.bind, h n]⟩

/-- Solving the event of a clause at a leaf with increasing and decreasing derived variables. -/
theorem leaf_clause_solve (hc : c.Correct) (hli : c.Linear) {V : Finset String} {s : Spe} {X : String} {env : Env} (hl : s.leafEnv = some (X, env)) (hs : s.WF c L μ) (he : env.Curves)
    (hsym : s.symbols ⊆ env.keys.toFinset) (hT : ∀ k ∈ V, k ∈ env.keys → T k) :
    ∃ N, ∀ n, N ≤ n → ∀ m : Clause String, LitClauseR (FlatRel T) V s m → ∃ e r S, factorEvent c [m] = .ok e ∧ leafSubst c n X env e = .ok r ∧ r.solve c n = .ok S ∧ S.Flat := by
  obtain ⟨N, hN⟩ := leafCurve_solve hc hli (leafEnv_built hs hl) he (env.keys.map .id)
  refine ⟨N, fun n hn m hm => ?_⟩
  have hk : ∀ p ∈ m, p.1 ∈ env.keys := fun p hp => by simpa using hsym (hm.sub p hp).1
  obtain ⟨e, h1, h2⟩ := factorEvent_flat (c := c) hm (fun p hp => hT p.1 (hm.sub p hp).2 (hk p hp))
  have hk' : ∀ k ∈ m.map Prod.fst, k ∈ env.keys := by
    intro k h
    obtain ⟨p, hp, rfl⟩ := List.mem_map.1 h
    exact hk p hp
  obtain ⟨r, S, h3, h4, h5⟩ := hN n hn e (h2.mono (by
    rintro l ⟨a, k, hk, hb⟩
    exact ⟨a, .id k, List.mem_map.2 ⟨k, hk' k hk, rfl⟩, hb⟩)) (by
    have one : ∀ l : Ev, (l.AnyLit ∧ ∃ k ∈ m.map Prod.fst, l.basic? = some (.id k)) → ∀ s ∈ l.symbols, s ∈ env.keys := by
      rintro l ⟨-, k, hk, hb⟩ s hs
      rw [symbols_of_basic hb] at hs
      simp [Tr.symbols] at hs
      subst hs; exact hk' _ hk
    intro s hs
    cases h2 with
    | lit h => exact one _ h s hs
    | and hne h =>
      rw [Ev.symbols, Ev.mem_symbolsL] at hs
      obtain ⟨l, hl, hs⟩ := hs
      exact one l (h l hl) s hs)
  exact ⟨e, r, S, h1, h3, h4, h5⟩

theorem leafProbs_bound (hc : c.Correct) (hli : c.Linear) {V : Finset String} (s : Spe) (hs : s.WF c L μ) (hp : s.CurvyLeaf T V) : ∃ N, ∀ n, N ≤ n → LeafProbs c L T V n s := by
  have key : ∀ X env, s.leafEnv = some (X, env) → s.symbols ⊆ env.keys.toFinset → env.Curves → (∀ k ∈ V, k ∈ env.keys → T k) → ∃ N, ∀ n, N ≤ n → LeafProbs c L T V n s := by
    intro X env hl hsym he hT
    obtain ⟨N, hN⟩ := leaf_clause_solve hc hli hl hs he hsym hT
    refine ⟨N, fun n hn m hm => ?_⟩
    obtain ⟨e, r, S, h1, h2, h3, h4⟩ := hN n hn m hm
    obtain ⟨-, p, h5⟩ := leafProb_curve (L := L) hs hl h2 h3 h4
    exact ⟨p, by simp only [h1, bind, Except.bind, h5]⟩
  cases s with
  | real k X d supp cond env =>
    rcases hp with h | ⟨h1, h2⟩
    · exact ⟨0, fun n _ => leafProbs_base rfl hs (.real h) n⟩
    · exact key X env rfl (by simp [Spe.symbols, Env.keys]) h1 h2
  | atomic X v env =>
    rcases hp with h | ⟨h1, h2⟩
    · exact ⟨0, fun n _ => leafProbs_base rfl hs (.atomic h) n⟩
    · exact key X env rfl (by simp [Spe.symbols, Env.keys]) h1 h2
  | nominal X dist => exact ⟨0, fun n _ => leafProbs_base rfl hs .nominal n⟩
  | sum => exact False.elim hp
  | prod => exact False.elim hp

theorem leafConds_bound (hc : c.Correct) (hli : c.Linear) {V : Finset String} (s : Spe) (hs : s.WF c L μ) (hp : s.CurvyContLeaf T V) : ∃ N, ∀ n, N ≤ n → LeafConds c L μ T V n s := by
  have key : ∀ X env, s.leafEnv = some (X, env) → s.symbols ⊆ env.keys.toFinset → env.Curves → (∀ k ∈ V, k ∈ env.keys → T k) → (∀ x, s.Whole X x) → ∃ N, ∀ n, N ≤ n → LeafConds c L μ T V n s := by
    intro X env hl hsym he hT hw
    obtain ⟨N, hN⟩ := leaf_clause_solve hc hli hl hs he hsym hT
    refine ⟨N, fun n hn m hm _ h0 => ?_⟩
    obtain ⟨e, r, S, h1, h2, h3, h4⟩ := hN n hn m hm
    obtain ⟨g1, g2, g3⟩ := leafEvOK_factor (by simp [Spe.isLeaf, hl]) hm.factorOK h1
    obtain ⟨s', h5⟩ := leafCond_curve (L := L) hc hs hl h2 h3 h4 g1 (Filter.Eventually.of_forall g2) hw (by rw [g3, ← Clause.sat_eq m]; exact h0)
    exact ⟨s', by simp only [h1, bind, Except.bind, h5]⟩
  cases s with
  | real k X d supp cond env =>
    obtain ⟨h | ⟨h1, h2⟩, h3⟩ := hp
    · exact ⟨0, fun n _ => leafConds_base hc rfl hs (.real h) n⟩
    · by_cases hk : k = .disc
      · exact ⟨0, fun n _ => leafConds_base hc rfl hs (.real (h3 hk)) n⟩
      · exact key X env rfl (by simp [Spe.symbols, Env.keys]) h1 h2 (fun x => .inl (.real (fun h => absurd h hk)))
  | atomic X v env =>
    rcases hp with h | ⟨h1, h2⟩
    · exact ⟨0, fun n _ => leafConds_base hc rfl hs (.atomic h) n⟩
    · exact key X env rfl (by simp [Spe.symbols, Env.keys]) h1 h2 (fun x => .inl .atomic)
  | nominal X dist => exact ⟨0, fun n _ => leafConds_base hc rfl hs .nominal n⟩
  | sum => exact False.elim hp
  | prod => exact False.elim hp

/-! ## All SPEs -/

theorem probMem_flat (hc : c.Correct) (hli : c.Linear) {V : Finset String} {s : Spe} (hs : s.WF c L μ) (hp : s.Leaves (Spe.CurvyLeaf T V)) :
    ∃ N, ∀ n, N ≤ n → ∀ m : Clause String, LitClauseR (FlatRel T) V s m → ∃ p, s.probMem c L n [m] = .ok p := by
  obtain ⟨N, hN⟩ := Leaves.bound (P' := LeafProbs c L T V) (fun s _ hs h => leafProbs_bound hc hli s hs h) s hs hp
  refine ⟨N, fun n hn => ?_⟩
  exact probMem_clause_gen (B := Spe.Leaves (LeafProbs c L T V n)) hc flatRel_closed (fun _ _ h => Leaves.sum_inv h) (fun _ h => Leaves.prod_inv h)
    (fun s X env hl _ h => Leaves.leaf_inv h (by simp [Spe.isLeaf, hl])) s hs (hN n hn)

theorem CurvyContLeaf.curvy {V : Finset String} {s : Spe} (h : s.CurvyContLeaf T V) : s.CurvyLeaf T V := by
  cases s with
  | real => exact h.1
  | atomic => exact h
  | nominal => trivial
  | sum => exact h
  | prod => exact h

theorem condMem_flat (hc : c.Correct) (hli : c.Linear) {V : Finset String} {E : String → Env} {s : Spe} (hs : s.WF c L μ) (hE : s.Ready E) (hp : s.Leaves (Spe.CurvyContLeaf T V)) :
    ∃ N, ∀ n, N ≤ n → ∀ m : Clause String, LitClauseR (FlatRel T) V s m → WholeClause s m → s.den μ (Clause.sat m) ≠ 0 → ∃ s', s.condMem c L hash n [m] = .ok s' := by
  obtain ⟨N, hN⟩ := Leaves.bound (P' := fun n s => LeafProbs c L T V n s ∧ LeafConds c L μ T V n s) (fun s _ hs h => by
    obtain ⟨N1, h1⟩ := leafProbs_bound (L := L) hc hli s hs (CurvyContLeaf.curvy h)
    obtain ⟨N2, h2⟩ := leafConds_bound hc hli s hs h
    exact ⟨max N1 N2, fun n hn => ⟨h1 n (le_trans (le_max_left _ _) hn), h2 n (le_trans (le_max_right _ _) hn)⟩⟩) s hs hp
  refine ⟨N, fun n hn => ?_⟩
  have hpr := probMem_clause_gen (c := c) (L := L) (μ := μ) (V := V) (n := n) (B := Spe.Leaves (fun s => LeafProbs c L T V n s ∧ LeafConds c L μ T V n s)) hc flatRel_closed (fun _ _ h => Leaves.sum_inv h) (fun _ h => Leaves.prod_inv h)
    (fun s X env hl _ h => (Leaves.leaf_inv h (by simp [Spe.isLeaf, hl])).1)
  exact condMem_clause_gen (B := Spe.Leaves (fun s => LeafProbs c L T V n s ∧ LeafConds c L μ T V n s)) hc flatRel_closed (fun _ _ h => Leaves.sum_inv h) (fun _ h => Leaves.prod_inv h) hpr
    (fun s X env hl _ h => (Leaves.leaf_inv h (by simp [Spe.isLeaf, hl])).2) s hs hE (hN n hn)

/-- The clause of a normalised conjunction. -/
theorem factor_flat {s : Spe} {V : Finset String} {d : Ev} (hd : d.IsClause) (hv : d.Valid) (ha : d.All (PlainLit Q)) (hf : d.All (FlatLit T)) (hn : d.All (NumOn (· ∈ s.atomSyms)))
    (hs : d.symbols ⊆ s.symbols) (hV : d.symbols ⊆ V) : ∃ m, dnfFactor1 c d = .ok [m] ∧ LitClauseR (FlatRel T) V s m ∧ (∀ p ∈ m, p.2.values.Within (Q p.1)) ∧ Factor.set [m] = d.set := by
  have hdd : d.IsDnf := by cases d <;> first | exact hd | exact False.elim hd
  obtain ⟨F, h1, -, h3, h4, -⟩ := factor_total (c := c) hdd hv ha hn hs hV
  obtain ⟨m, rfl, h5⟩ := dnfFactor1_clause hd h1
  obtain ⟨h6, h7⟩ := h3 m (by simp)
  exact ⟨m, h1, ⟨h6.ne, h6.inv, factorClause_flat hd hf h5, h6.sub⟩, h7, h4⟩

theorem prob_flat (hc : c.Correct) (hli : c.Linear) {s : Spe} (hl : s.isLeaf = false) (hs : s.WF c L μ) {e : Ev} (he : e.Curved Q T) (hcl : e.IsClause) (hsym : e.symbols ⊆ s.symbols) (hn : e.NomFree s.atomSyms)
    (hp : s.Leaves (Spe.CurvyLeaf T e.symbols)) : ∃ N, ∀ n, N ≤ n → ∃ p, s.prob c L n e = .ok p := by
  obtain ⟨ev, ea⟩ := he.all
  obtain ⟨N1, o, h1, h2⟩ := dnfNormalize_mix hc hli ev ea
  obtain ⟨N2, h3⟩ := dnfNormalize_flat hc hli ev hcl ea
  obtain ⟨N3, h4⟩ := probMem_flat (L := L) hc hli hs hp
  refine ⟨max N1 (max N2 N3), fun n hN => ?_⟩
  have e1 : N1 ≤ n := le_trans (le_max_left _ _) hN
  have e2 : N2 ≤ n := le_trans (le_trans (le_max_left _ _) (le_max_right _ _)) hN
  have e3 : N3 ≤ n := le_trans (le_trans (le_max_right _ _) (le_max_right _ _)) hN
  unfold Spe.prob
  rw [if_neg (by simp [hl])]
  simp only [h1 n e1, bind, Except.bind]
  cases o with
  | none => exact ⟨0, rfl⟩
  | some r =>
    simp only
    obtain ⟨-, r2, r3, -⟩ := h2 r rfl
    obtain ⟨f1, f2⟩ := h3 n e2 r (h1 n e1)
    obtain ⟨hN', -⟩ := (dnfNormalize_ok hc (he.made (c := c)) (h1 n e1)).2 r rfl
    have hnum := dnfNormalize_num hc (he.made (c := c)) (h1 n e1) ((nomFree_iff e).1 hn)
    obtain ⟨g1, -⟩ := normOK_set hN'
    obtain ⟨m, hm, hm1, -⟩ := factor_flat (c := c) (s := s) (V := e.symbols) f1 r2 r3 f2 hnum (g1.trans hsym) g1
    rw [hm]
    exact h4 n e3 m hm1

theorem condition_flat (hc : c.Correct) (hli : c.Linear) {E : String → Env} {s : Spe} (hs : s.WF c L μ) (hE : s.Ready E) (hl : s.isLeaf = false) {e : Ev} (he : e.Curved s.Whole T) (hcl : e.IsClause)
    (hreg : ∀ᵐ ω ∂(s.den μ), e.Regular ω) (hsym : e.symbols ⊆ s.symbols) (hn : e.NomFree s.atomSyms) (hm : s.den μ e.set ≠ 0)
    (hp : s.Leaves (Spe.CurvyContLeaf T e.symbols)) : ∃ N, ∀ n, N ≤ n → ∃ s', s.condition c L hash n e = .ok s' := by
  obtain ⟨ev, ea⟩ := he.all
  obtain ⟨N1, o, h1, h2⟩ := dnfNormalize_mix hc hli ev ea
  obtain ⟨N2, h3⟩ := dnfNormalize_flat hc hli ev hcl ea
  obtain ⟨N3, h4⟩ := condMem_flat (L := L) (hash := hash) hc hli hs hE hp
  refine ⟨max N1 (max N2 (max N3 1)), fun n hN => ?_⟩
  have e1 : N1 ≤ n := le_trans (le_max_left _ _) hN
  have e2 : N2 ≤ n := le_trans (le_trans (le_max_left _ _) (le_max_right _ _)) hN
  have e34 : max N3 1 ≤ n := le_trans (le_trans (le_max_right _ _) (le_max_right _ _)) hN
  have e3 : N3 ≤ n := le_trans (le_max_left _ _) e34
  have e4 : 1 ≤ n := le_trans (le_max_right _ _) e34
  have hmade := he.made (c := c)
  obtain ⟨z1, z2⟩ := dnfNormalize_ok hc hmade (h1 n e1)
  cases o with
  | none =>
    exfalso
    apply hm
    rw [measure_eq_zero_iff_ae_notMem]
    filter_upwards [hreg] with ω hω
    exact z1 rfl ω hω
  | some r =>
    obtain ⟨-, r2, r3, -⟩ := h2 r rfl
    obtain ⟨f1, f2⟩ := h3 n e2 r (h1 n e1)
    obtain ⟨hN', -⟩ := z2 r rfl
    have hnum := dnfNormalize_num hc hmade (h1 n e1) ((nomFree_iff e).1 hn)
    obtain ⟨g1, -⟩ := normOK_set hN'
    have hrset : s.den μ r.set = s.den μ e.set := measure_congr (by filter_upwards [hreg] with ω hω; exact propext (hN'.holds ω hω))
    obtain ⟨m, hm0, hm1, hm2, hm3⟩ := factor_flat (c := c) (s := s) (V := e.symbols) f1 r2 r3 f2 hnum (g1.trans hsym) g1
    obtain ⟨s', h5⟩ := h4 n e3 m hm1 hm2 (by rw [Clause.sat_eq m, hm3, hrset]; exact hm)
    refine ⟨s', ?_⟩
    have hd : dropNull c L n s r = .ok r := by cases r <;> first | rfl | exact False.elim f1
    have ht : toDisjoint c n n r = .ok r := by
      obtain ⟨n', rfl⟩ : ∃ n', n = n' + 1 := ⟨n - 1, by omega⟩
      cases r <;> first | rfl | exact False.elim f1
    unfold Spe.condition
    rw [if_neg (by simp [hl])]
    simp only [h1 n e1, bind, Except.bind, hd, ht, hm0, h5]

/-- Solving a conjunction at a leaf. -/
theorem leaf_conj_solve (hc : c.Correct) (hli : c.Linear) {s : Spe} {X : String} {env : Env} {e : Ev} (hs : s.WF c L μ) (hl : s.leafEnv = some (X, env)) (henv : env.Curves)
    (he : e.AndOf Ev.AnyLit) (hsym : e.symbols ⊆ s.symbols) :
    ∃ N, ∀ n, N ≤ n → ∃ r S, leafSubst c n X env e = .ok r ∧ r.solve c n = .ok S ∧ S.Flat := by
  have hk : ∀ k ∈ e.symbols, k ∈ env.keys := by
    intro k h
    have := hsym h
    cases s with
    | real => simp only [Spe.leafEnv, Option.some.injEq, Prod.mk.injEq] at hl; obtain ⟨rfl, rfl⟩ := hl; simpa [Spe.symbols, Env.keys] using this
    | atomic => simp only [Spe.leafEnv, Option.some.injEq, Prod.mk.injEq] at hl; obtain ⟨rfl, rfl⟩ := hl; simpa [Spe.symbols, Env.keys] using this
    | nominal => simp only [Spe.leafEnv, Option.some.injEq, Prod.mk.injEq] at hl; obtain ⟨rfl, rfl⟩ := hl; simpa [Spe.symbols, Env.keys] using this
    | sum => simp [Spe.leafEnv] at hl
    | prod => simp [Spe.leafEnv] at hl
  have hts : ∃ ts : List Tr, e.AndOf (fun l => l.AnyLit ∧ ∃ t ∈ ts, l.basic? = some t) := by
    have one : ∀ l : Ev, l.AnyLit → ∃ t, l.basic? = some t := by
      rintro l ⟨k, h⟩
      obtain ⟨t, -, ht, -⟩ := h.flat
      exact ⟨t, ht⟩
    cases he with
    | lit h =>
      obtain ⟨t, ht⟩ := one _ h
      exact ⟨[t], .lit ⟨h, t, by simp, ht⟩⟩
    | @and es hne h =>
      refine ⟨es.filterMap Ev.basic?, .and hne (fun l hl => ⟨h l hl, ?_⟩)⟩
      obtain ⟨t, ht⟩ := one l (h l hl)
      exact ⟨t, List.mem_filterMap.2 ⟨l, hl, ht⟩, ht⟩
  obtain ⟨ts, hts⟩ := hts
  obtain ⟨N, hN⟩ := leafCurve_solve hc hli (leafEnv_built hs hl) henv ts
  exact ⟨N, fun n hn => hN n hn e hts hk⟩

end Sppl
