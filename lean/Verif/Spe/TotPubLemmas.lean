import Verif.Spe.TotCondLemmas
import Verif.Dnf.TotalProps

set_option linter.all false

/-!
# `prob` and `condition` never raise on simple events (helper lemmas)
-/

namespace Sppl
open Classical MeasureTheory
open scoped ENNReal ProbabilityTheory

variable {c : Ctx} {L : Lib} {μ : Dist → Measure ℝ} {hash : Spe → ℤ} {Q : String → EReal → Prop}

/-- A clause of basic events about base variables, with the requirement on numbers. -/
def ClauseQ (Q : String → EReal → Prop) (s : Spe) (V : Finset String) (m : Clause String) : Prop :=
  LitClause V s m ∧ ∀ p ∈ m, p.2.values.Within (Q p.1)

theorem factor_total {s : Spe} {V : Finset String} {d : Ev} (hd : d.IsDnf) (hv : d.Valid) (ha : d.All (PlainLit Q)) (hn : d.All (NumOn (· ∈ s.atomSyms)))
    (hs : d.symbols ⊆ s.symbols) (hV : d.symbols ⊆ V) : ∃ F, dnfFactor1 c d = .ok F ∧ F ≠ [] ∧ (∀ m ∈ F, ClauseQ Q s V m) ∧ Factor.set F = d.set ∧
      List.Forall₂ (fun x m => Clause.sat m = Ev.set x) d.disjuncts F := by
  obtain ⟨F, hF, h2⟩ := dnfFactor1_total (c := c) hd hv ha
  obtain ⟨h3, h4⟩ := factor_ok hv (plain_vars ha) hn hF
  refine ⟨F, hF, h3.ne, ?_, h4, h2.imp (fun x m h => ?_)⟩
  · intro m hm
    obtain ⟨x, -, -, hp, -⟩ := forall₂_mem_right h2 hm
    refine ⟨⟨hp.ne, h3.inv m hm, hp.lit, fun p hp' => ⟨hs (hp.syms p hp'), hV (hp.syms p hp')⟩⟩, ?_⟩
    intro p hp'
    obtain ⟨-, k, hk, hw⟩ := hp.plain p hp'
    rw [hp.lit p hp'] at hk; cases hk
    exact hw
  · ext ω; exact h.2.2 ω

theorem Ev.Simple.made {e : Ev} (he : e.Simple Q) : e.Made c ∧ ∀ ω, e.Regular ω := by
  obtain ⟨ev, ea⟩ := he.all
  obtain ⟨h1, -, h3⟩ := vars_made (c := c) (A := e.symbols) ev (by
    refine (ea.and' (Ev.symbols_all.1 (le_refl _))).mono ?_
    rintro l t ht ⟨⟨-, k, hk, -⟩, h⟩
    refine ⟨k, h ?_, hk⟩
    rw [symbols_of_basic hk]; simp [Tr.symbols])
  exact ⟨h1, h3⟩

/-- What `dnf_normalize` returns. -/
theorem normalize_total (hc : c.Correct) {e : Ev} (he : e.Simple Q) : ∃ o, (∀ n, dnfNormalize c n e = .ok o) ∧
    ∀ r, o = some r → r.IsDnf ∧ r.Valid ∧ r.All (PlainLit Q) ∧ (NormTotal Q r ∨ ∀ es, r ≠ .or es) := by
  obtain ⟨ev, ea⟩ := he.all
  obtain ⟨o, h1, h2⟩ := dnfNormalize_total hc ev ea
  refine ⟨o, h1, fun r hr => ?_⟩
  rcases h2 r hr with h | ⟨rfl, h⟩
  · exact ⟨h.dnf, h.valid, full_plain h.full, Or.inl h⟩
  · refine ⟨?_, ev, ea, Or.inr ?_⟩
    · cases r <;> first | trivial | simp [Ev.isIdLit, Ev.basic?] at h
    · rintro es rfl; simp [Ev.isIdLit, Ev.basic?] at h

theorem prob_total (hc : c.Correct) {s : Spe} (hl : s.isLeaf = false) {e : Ev} (he : e.Simple Q) (hsym : e.symbols ⊆ s.symbols) (hn : e.NomFree s.atomSyms) (n : ℕ)
    (hp : ∀ F, F ≠ [] → (∀ m ∈ F, ClauseQ Q s e.symbols m) → ∃ p, s.probMem c L n F = .ok p) : ∃ p, s.prob c L n e = .ok p := by
  obtain ⟨o, h1, h2⟩ := normalize_total hc he
  unfold Spe.prob
  rw [if_neg (by simp [hl])]
  simp only [h1 n, bind, Except.bind]
  cases o with
  | none => exact ⟨0, rfl⟩
  | some r =>
    simp only
    obtain ⟨r1, r2, r3, -⟩ := h2 r rfl
    obtain ⟨hN, -⟩ := (dnfNormalize_ok hc (he.made (c := c)).1 (h1 n)).2 r rfl
    have hnum := dnfNormalize_num hc (he.made (c := c)).1 (h1 n) ((nomFree_iff e).1 hn)
    obtain ⟨g1, -⟩ := normOK_set hN
    obtain ⟨F, hF, hne, hcl, -⟩ := factor_total (c := c) (s := s) (V := e.symbols) r1 r2 r3 hnum (g1.trans hsym) g1
    rw [hF]
    exact hp F hne hcl

theorem dropNull_total (hc : c.Correct) {s : Spe} (hs : s.WF c L μ) {V : Finset String} {r : Ev} (r1 : r.IsDnf) (r2 : r.Valid) (r3 : r.All (PlainLit Q)) (r4 : NormTotal Q r ∨ ∀ es, r ≠ .or es)
    (hnum : r.All (NumOn (· ∈ s.atomSyms))) (hsym : r.symbols ⊆ s.symbols) (hV : r.symbols ⊆ V)
    (hp : ∀ n F, F ≠ [] → (∀ m ∈ F, ClauseQ Q s V m) → ∃ p, s.probMem c L n F = .ok p) (hm : s.den μ r.set ≠ 0) :
    ∃ d, (∀ n, dropNull c L n s r = .ok d) ∧ (NormTotal Q d ∨ ∀ es, d ≠ .or es) := by
  have hprob := hs.prob
  cases r with
  | or es =>
    rcases r4 with r4 | r4
    swap; · exact absurd rfl (r4 es)
    have hcl : ∀ x ∈ es, ∃ F, dnfFactor1 c x = .ok F ∧ ∀ n, s.probMem c L n F = .ok ((s.den μ).real x.set) := by
      intro x hx
      have hxs : x.symbols ⊆ (Ev.or es).symbols := Ev.symbols_all.2 (Ev.all_or.1 (Ev.symbols_all.1 (le_refl _)) x hx)
      have hxv : x.Valid := by cases r2 with | or _ h => exact h x hx
      have hxd : x.IsDnf := by
        have := r1.2 x hx
        cases x <;> first | exact this | exact False.elim this
      obtain ⟨F, hF, hne, h1, h2, -⟩ := factor_total (c := c) (s := s) (V := V) hxd hxv (Ev.all_or.1 r3 x hx) (Ev.all_or.1 hnum x hx) (hxs.trans hsym) (hxs.trans hV)
      refine ⟨F, hF, fun n => ?_⟩
      obtain ⟨p, hp⟩ := hp n F hne h1
      rw [hp, ← h2, probMem_ok hc s hs F (factorOK_of hne (fun m hm => (h1 m hm).1)) hp]
    have hFs : ∃ Fs, es.mapM (dnfFactor1 c) = .ok Fs ∧ ∀ n, Fs.mapM (s.probMem c L n) = .ok (es.map (fun x => (s.den μ).real x.set)) := by
      clear r1 r2 r3 r4 hnum hsym hV hm
      induction es with
      | nil => exact ⟨[], rfl, fun _ => rfl⟩
      | cons x es ih =>
        obtain ⟨F, h1, h2⟩ := hcl x (by simp)
        obtain ⟨Fs, h3, h4⟩ := ih (fun x hx => hcl x (by simp [hx]))
        refine ⟨F :: Fs, by simp only [List.mapM_cons, h1, h3, bind, Except.bind]; rfl, fun n => ?_⟩
        simp only [List.mapM_cons, h2 n, h4 n, bind, Except.bind]; rfl
    obtain ⟨Fs, h1, h2⟩ := hFs
    have hgood : ((es.zip (es.map (fun x => (s.den μ).real x.set))).filter (fun r => r.2 ≠ 0)).map Prod.fst = es.filter (fun x => (s.den μ).real x.set ≠ 0) := by
      have e : es.zip (es.map (fun x => (s.den μ).real x.set)) = es.map (fun x => (x, (s.den μ).real x.set)) := by
        clear * -; induction es with
        | nil => rfl
        | cons i F ih => simp [ih]
      rw [e, ← filter_map_comm (p := fun x => decide ((s.den μ).real x.set ≠ 0)) (fun _ _ => rfl), List.map_map]
      exact List.map_id _
    have hGne : es.filter (fun x => (s.den μ).real x.set ≠ 0) ≠ [] := by
      intro h0
      apply hm
      have : (Ev.or es).set = ⋃ x ∈ {x | x ∈ es}, Ev.set x := by ext ω; simp [Ev.set]
      rw [this, measure_biUnion_null_iff (List.finite_toSet es).countable]
      intro x hx
      by_contra hcon
      have : x ∈ es.filter (fun x => (s.den μ).real x.set ≠ 0) := List.mem_filter.2 ⟨hx, by simpa using real_ne_zero.2 hcon⟩
      rw [h0] at this; simp at this
    have hmem : ∀ x ∈ es.filter (fun x => (s.den μ).real x.set ≠ 0), x ∈ es := fun x hx => (List.mem_filter.1 hx).1
    refine ⟨.or (es.filter (fun x => (s.den μ).real x.set ≠ 0)), fun n => ?_, Or.inl ⟨⟨hGne, fun x hx => r1.2 x (hmem x hx)⟩, ?_, ?_, ?_⟩⟩
    · simp only [dropNull, h1, h2 n, bind, Except.bind]
      rw [if_neg (by intro h0; rw [h0] at hgood; exact hGne hgood.symm), hgood]
    · refine .or hGne (fun x hx => ?_)
      cases r2 with | or _ h => exact h x (hmem x hx)
    · exact Ev.all_or.2 (fun x hx => Ev.all_or.1 r4.full x (hmem x hx))
    · intro x hx; exact r4.sat x (hmem x hx)
  | _ => exact ⟨_, fun _ => rfl, r4⟩

theorem pairwise_sat {c : Ctx} {g : Ev} {F : Factor} (h : List.Forall₂ (fun x m => Clause.sat m = Ev.set x) g.disjuncts F) (hd : ∀ ω, g.DisjAt ω) :
    F.Pairwise (fun a b => Disjoint (Clause.sat a) (Clause.sat b)) := by
  have hd' : g.disjuncts.Pairwise (fun a b => Disjoint (Ev.set a) (Ev.set b)) := by
    rw [List.pairwise_iff_getElem]
    intro i j hi hj hij
    rw [Set.disjoint_left]
    intro ω h1 h2
    have := hd ω
    unfold Ev.DisjAt at this
    rw [List.pairwise_iff_getElem] at this
    exact this i j hi hj hij ⟨h1, h2⟩
  clear hd
  generalize g.disjuncts = xs at h hd'
  induction h with
  | nil => exact .nil
  | @cons x m xs ms h1 h2 ih =>
    rw [List.pairwise_cons] at hd' ⊢
    refine ⟨?_, ih hd'.2⟩
    intro b hb
    obtain ⟨y, hy, he⟩ := forall₂_mem_right h2 hb
    rw [h1, he]; exact hd'.1 y hy

theorem condition_total (hc : c.Correct) {E : String → Env} {s : Spe} (hs : s.WF c L μ) (hE : s.Ready E) (hl : s.isLeaf = false) {e : Ev} (he : e.Simple Q) (hsym : e.symbols ⊆ s.symbols)
    (hn : e.NomFree s.atomSyms) (hk : ∀ᵐ ω ∂(s.den μ), e.Suits ω) (hm : s.den μ e.set ≠ 0)
    (hp : ∀ n F, F ≠ [] → (∀ m ∈ F, ClauseQ Q s e.symbols m) → ∃ p, s.probMem c L n F = .ok p)
    (hcd : ∀ n F, F ≠ [] → (∀ m ∈ F, ClauseQ Q s e.symbols m) → F.Pairwise (fun a b => Disjoint (Clause.sat a) (Clause.sat b)) → s.den μ (Factor.set F) ≠ 0 →
      ∃ s', s.condMem c L hash n F = .ok s') : ∃ N, ∀ n, N ≤ n → ∃ s', s.condition c L hash n e = .ok s' := by
  obtain ⟨o, h1, h2⟩ := normalize_total hc he
  have hmade := (he.made (c := c)).1
  have hreg := (he.made (c := c)).2
  obtain ⟨z1, z2⟩ := dnfNormalize_ok hc hmade (h1 0)
  cases o with
  | none =>
    exfalso
    apply hm
    have : e.set = ∅ := by
      ext ω
      simp only [Ev.set, Set.mem_setOf_eq, Set.mem_empty_iff_false, iff_false]
      exact z1 rfl ω (hreg ω)
    rw [this]; simp
  | some r =>
    obtain ⟨r1, r2, r3, r4⟩ := h2 r rfl
    obtain ⟨hN, hT⟩ := z2 r rfl
    obtain ⟨g1, g2⟩ := normOK_set hN
    have hnum := dnfNormalize_num hc hmade (h1 0) ((nomFree_iff e).1 hn)
    have hrset : r.set = e.set := by ext ω; exact hN.holds ω (hreg ω)
    obtain ⟨d, hd, hd4⟩ := dropNull_total (L := L) hc hs (V := e.symbols) r1 r2 r3 r4 hnum (g1.trans hsym) g1 hp (by rw [hrset]; exact hm)
    obtain ⟨k1, k2, k3, k4, k5⟩ := dropNull_ok hc hs hN hsym hnum (hd 0)
    obtain ⟨D, hD⟩ := toDisjoint_total hc k1 k3 (k2 _ r3) hd4
    obtain ⟨v1, v2, v3⟩ := vars_made (c := c) k3 (k2 _ hN.vars)
    have hdsym : d.symbols ⊆ e.symbols := by
      refine Finset.Subset.trans ?_ g1
      rw [Ev.symbols_all]
      exact k2 _ (Ev.symbols_all.1 (le_refl _))
    refine ⟨D, fun n hnD => ?_⟩
    obtain ⟨g, hg, hgv, hga⟩ := hD n n hnD
    have hDJ := toDisjoint_ok hc n k1 v1 v2 hg
    obtain ⟨t1, t2, t3⟩ := toDisjoint_num hc n v1 v2 (k2 _ g2) (k2 _ hnum) hg
    obtain ⟨F, hF, hne, hcl, hset, hF2⟩ := factor_total (c := c) (s := s) (V := e.symbols) hDJ.dnf hgv hga t3 ((hDJ.symbols.trans hdsym).trans hsym) (hDJ.symbols.trans hdsym)
    have hae : ∀ᵐ ω ∂(s.den μ), ω ∈ g.set ↔ ω ∈ e.set := by
      filter_upwards [hk, k5] with ω hs h5
      obtain ⟨w1, w2⟩ := Ev.suits_wk hs
      show g.holds ω ↔ e.holds ω
      rw [← hN.holds ω (hreg ω), ← h5]
      exact ⟨hDJ.sound ω (v3 ω), hDJ.complete ω (v3 ω) (k4 ω (hT ω w1 w2))⟩
    have hmg : s.den μ (Factor.set F) ≠ 0 := by
      rw [hset]
      intro h0; exact hm (by rw [← h0]; exact measure_congr (by filter_upwards [hae] with ω hω; exact propext hω.symm))
    obtain ⟨s', hs'⟩ := hcd n F hne hcl (pairwise_sat (c := c) hF2 (fun ω => hDJ.disj ω (v3 ω))) hmg
    refine ⟨s', ?_⟩
    unfold Spe.condition
    rw [if_neg (by simp [hl])]
    simp only [h1 n, bind, Except.bind, hd n, hg, hF]
    exact hs'

/-! ## One basic event, for every SPE -/

theorem lit_idLit {e : Ev} {k : String} (h : e.basic? = some (.id k)) : e.isIdLit = true ∧ e.IsDnf ∧ (∀ es, e ≠ .or es) ∧ e.disjuncts = [e] := by
  cases e <;> simp_all [Ev.isIdLit, Ev.basic?, Tr.isId, Ev.IsDnf, Ev.IsClause, Ev.IsLit, Ev.disjuncts]

theorem lit_factor {e : Ev} {k : String} (h : e.basic? = some (.id k)) (he : e.Simple Q) {s : Spe} (hsym : e.symbols ⊆ s.symbols) (hn : e.NomFree s.atomSyms) :
    dnfFactor1 c e = .ok [[(k, e)]] ∧ ClauseQ Q s e.symbols [(k, e)] ∧ Clause.sat [(k, e)] = e.set := by
  obtain ⟨h1, h2, h3, h4⟩ := lit_idLit h
  obtain ⟨ev, ea⟩ := he.all
  obtain ⟨F, f1, -, f3, -, f5⟩ := factor_total (c := c) (s := s) (V := e.symbols) h2 ev ea ((nomFree_iff e).1 hn) hsym (le_refl _)
  have hF : dnfFactor1 c e = .ok [[(k, e)]] := by
    have hk := symbols_lit h
    cases e <;> simp only [Ev.basic?, Option.some.injEq, reduceCtorEq] at h <;> subst h <;>
      simp [dnfFactor1, dnfFactor, factorClause, factorLit, selfLookup, Ev.symbol1, hk, Finset.card_singleton, bind, Except.bind, Ev.symbols, Tr.symbols]
  rw [hF] at f1; cases f1
  rw [h4] at f5
  obtain _ | ⟨g, g'⟩ := f5
  exact ⟨hF, f3 _ (by simp), g⟩

theorem lit_leaf {e : Ev} {k : String} (h : e.basic? = some (.id k)) (he : e.Simple Q) {s : Spe} (hb : s.BaseOn e.symbols) (hsym : e.symbols ⊆ s.symbols) (hn : e.NomFree s.atomSyms)
    (hl : s.isLeaf = true) : ∃ env, s.leafEnv = some (k, env) ∧ e.Valid ∧ factorEvent c [[(k, e)]] = .ok e := by
  obtain ⟨-, h2, -⟩ := lit_factor (c := c) h he hsym hn
  obtain ⟨⟨X, env⟩, hX⟩ := Option.isSome_iff_exists.1 (show s.leafEnv.isSome = true from hl)
  obtain ⟨l, e1, e2, e3, e4, e5⟩ := h2.1.leaf (c := c) hb hX
  simp only [List.cons.injEq, Prod.mk.injEq, and_true] at e1
  obtain ⟨rfl, rfl⟩ := e1
  exact ⟨env, hX, e3, e5⟩

theorem prob_lit_total (hc : c.Correct) {s : Spe} (hs : s.WF c L μ) {e : Ev} {k : String} (h : e.basic? = some (.id k)) (he : e.Simple Q) (hb : s.BaseOn e.symbols)
    (hsym : e.symbols ⊆ s.symbols) (hn : e.NomFree s.atomSyms) (n : ℕ) : ∃ p, s.prob c L n e = .ok p := by
  obtain ⟨h1, h2, -⟩ := lit_factor (c := c) h he hsym hn
  unfold Spe.prob
  split
  · rename_i hl
    obtain ⟨env, g1, g2, -⟩ := lit_leaf (c := c) h he hb hsym hn hl
    obtain ⟨p, hp⟩ := leafProb_total hs g1 g2 h hn
    exact ⟨p, hp n⟩
  · simp only [dnfNormalize, (lit_idLit h).1, if_true, bind, Except.bind, h1]
    exact probMem_clause_total (L := L) (n := n) hc s hs hb _ h2.1

theorem condition_lit_total (hc : c.Correct) {E : String → Env} {s : Spe} (hs : s.WF c L μ) (hE : s.Ready E) {e : Ev} {k : String} (h : e.basic? = some (.id k)) (he : e.Simple s.Whole)
    (hb : s.BaseOn e.symbols) (hsym : e.symbols ⊆ s.symbols) (hn : e.NomFree s.atomSyms) (hm : s.den μ e.set ≠ 0) (n : ℕ) :
    ∃ s', s.condition c L hash (n + 1) e = .ok s' := by
  obtain ⟨h1, h2, h3⟩ := lit_factor (c := c) h he hsym hn
  unfold Spe.condition
  split
  · rename_i hl
    obtain ⟨env, g1, g2, g3⟩ := lit_leaf (c := c) h he hb hsym hn hl
    obtain ⟨k1, k2, k3⟩ := leafEvOK_factor hl h2.1.factorOK g3
    obtain ⟨s', hs'⟩ := leafCond_total hc hs g1 g2 h hn k1 (Filter.Eventually.of_forall k2) (h2.2 (k, e) (by simp)) hm
    exact ⟨s', hs' _⟩
  · have hd : dropNull c L (n + 1) s e = .ok e := by
      have := (lit_idLit h).2.2.1
      cases e <;> first | rfl | exact absurd rfl (this _)
    have ht : toDisjoint c (n + 1) (n + 1) e = .ok e := by
      have := (lit_idLit h).2.2.1
      cases e <;> first | rfl | exact absurd rfl (this _)
    simp only [dnfNormalize, (lit_idLit h).1, if_true, bind, Except.bind, hd, ht, h1]
    exact condMem_clause_total (hash := hash) (n := n + 1) hc s hs hE hb _ h2.1 h2.2 (by rw [h3]; exact hm)

end Sppl
