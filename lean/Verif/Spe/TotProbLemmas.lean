import Verif.Spe.TotLeafLemmas
import Verif.Spe.CondLemmas

set_option linter.all false

/-!
# `logprob_mem` never raises on clauses of basic events about base variables (helper lemmas)
-/

namespace Sppl
open Classical MeasureTheory
open scoped ENNReal ProbabilityTheory

variable {c : Ctx} {L : Lib} {μ : Dist → Measure ℝ} {A : String → Prop} {R : String → Ev → Prop}

/-- A property of the factors of a clause that survives adding a factor. -/
def AddClosed (c : Ctx) (R : String → Ev → Prop) : Prop :=
  ∀ k ev (m m' : Clause String), (∀ p ∈ m, R p.1 p.2) → R k ev → Clause.addAnd c k ev m = .ok m' → ∀ p ∈ m', R p.1 p.2

/-- The factor is a basic event about its variable. -/
def LitRel (k : String) (e : Ev) : Prop := e.basic? = some (.id k)

theorem litRel_closed : AddClosed c LitRel := fun _ _ _ _ h1 h2 h3 => addAnd_lit h1 h2 h3

theorem conjClauseLoop_total (hR : AddClosed c R) {syms : List (Finset String)} {key : ℕ} : ∀ {m acc : Clause String}, ClauseInv A acc → (∀ p ∈ acc, R p.1 p.2) → (∀ p ∈ m, EvK A p.1 p.2) → (∀ p ∈ m, R p.1 p.2) →
    (∀ p ∈ m, ∃ i, lookupChild syms p.1 = .ok i) → ∃ acc', conjClauseLoop c syms key acc m = .ok acc' ∧ ClauseInv A acc' ∧ (∀ p ∈ acc', R p.1 p.2) := by
  intro m
  induction m with
  | nil => intro acc h1 h2 _ _ _; exact ⟨acc, rfl, h1, h2⟩
  | cons p m ih =>
    intro acc h1 h2 h3 h4 h5
    obtain ⟨i, hi⟩ := h5 p (by simp)
    have hrest := fun {acc'} (g1 : ClauseInv A acc') (g2 : (∀ p ∈ acc', R p.1 p.2)) => ih g1 g2 (fun q hq => h3 q (by simp [hq])) (fun q hq => h4 q (by simp [hq])) (fun q hq => h5 q (by simp [hq]))
    by_cases hk : i = key
    · obtain ⟨acc1, ha, -⟩ := addAnd_total (c := c) (k := p.1) (h3 p (by simp)).valid (m := acc) (fun q hq => (h1.ev q hq).valid)
      obtain ⟨acc', h, h'⟩ := hrest (h1.addAnd (h3 p (by simp)) ha).1 (hR _ _ _ _ h2 (h4 p (by simp)) ha)
      refine ⟨acc', ?_, h'⟩
      simp only [conjClauseLoop, List.foldlM_cons, bind, Except.bind, hi, if_pos hk, ha]
      simpa [conjClauseLoop, bind, Except.bind] using h
    · obtain ⟨acc', h, h'⟩ := hrest h1 h2
      refine ⟨acc', ?_, h'⟩
      simp only [conjClauseLoop, List.foldlM_cons, bind, Except.bind, hi, if_neg hk]
      simpa [conjClauseLoop, bind, Except.bind] using h

theorem conjClause_total (hR : AddClosed c R) {syms : List (Finset String)} {key : ℕ} {ms : List (Clause String)} (hms : ∀ m ∈ ms, ∀ p ∈ m, EvK A p.1 p.2) (hl : ∀ m ∈ ms, (∀ p ∈ m, R p.1 p.2))
    (hs : ∀ m ∈ ms, ∀ p ∈ m, ∃ i, lookupChild syms p.1 = .ok i) : ∃ cl, conjClause c syms key ms = .ok cl ∧ ClauseInv A cl ∧ (∀ p ∈ cl, R p.1 p.2) := by
  have : ∀ (ms : List (Clause String)), (∀ m ∈ ms, ∀ p ∈ m, EvK A p.1 p.2) → (∀ m ∈ ms, (∀ p ∈ m, R p.1 p.2)) → (∀ m ∈ ms, ∀ p ∈ m, ∃ i, lookupChild syms p.1 = .ok i) →
      ∀ acc : Clause String, ClauseInv A acc → (∀ p ∈ acc, R p.1 p.2) → ∃ cl, ms.foldlM (fun acc m => conjClauseLoop c syms key acc m) acc = .ok cl ∧ ClauseInv A cl ∧ (∀ p ∈ cl, R p.1 p.2) := by
    intro ms
    induction ms with
    | nil => intro _ _ _ acc h1 h2; exact ⟨acc, rfl, h1, h2⟩
    | cons m ms ih =>
      intro g1 g2 g3 acc h1 h2
      obtain ⟨acc1, ha, hb, hc⟩ := conjClauseLoop_total (c := c) hR (key := key) h1 h2 (g1 m (by simp)) (g2 m (by simp)) (g3 m (by simp))
      obtain ⟨cl, h, h'⟩ := ih (fun m hm => g1 m (by simp [hm])) (fun m hm => g2 m (by simp [hm])) (fun m hm => g3 m (by simp [hm])) acc1 hb hc
      exact ⟨cl, by simp only [List.foldlM_cons, bind, Except.bind, ha]; exact h, h'⟩
  exact this ms hms hl hs [] ⟨by simp, by simp⟩ (by intro p hp; simp at hp)

theorem lookupChild_total {syms : List (Finset String)} {s : String} (h : ∃ S ∈ syms, s ∈ S) : ∃ i, lookupChild syms s = .ok i := by
  unfold lookupChild
  cases hf : syms.findIdx? (fun S => decide (s ∈ S)) with
  | some i => exact ⟨i, rfl⟩
  | none =>
    rw [List.findIdx?_eq_none_iff] at hf
    obtain ⟨S, hS, hs⟩ := h
    have := hf S hS
    simp [hs] at this

theorem conjProb_total (hR : AddClosed c R) {syms : List (Finset String)} {fs : List (Factor → Res ℝ)} (hl : fs.length = syms.length)
    {ms : List (Clause String)} (hms : ∀ m ∈ ms, ∀ p ∈ m, EvK A p.1 p.2) (hlit : ∀ m ∈ ms, (∀ p ∈ m, R p.1 p.2)) (hs : ∀ m ∈ ms, ∀ p ∈ m, ∃ S ∈ syms, p.1 ∈ S)
    (hf : ∀ i (hi : i < syms.length) f, fs[i]? = some f → ∀ cl, cl ≠ [] → ClauseInv A cl → (∀ p ∈ cl, R p.1 p.2) → (∀ q ∈ cl, q.1 ∈ syms[i] ∧ ∃ m ∈ ms, q.1 ∈ m.map Prod.fst) →
      ∃ p, f [cl] = .ok p) : ∃ p, conjProb c syms fs ms = .ok p := by
  have hlook : ∀ m ∈ ms, ∀ p ∈ m, ∃ i, lookupChild syms p.1 = .ok i := fun m hm p hp => lookupChild_total (hs m hm p hp)
  obtain ⟨ks, hks, -, hk⟩ := mapM_total (P := fun i => i < syms.length) (l := ms.flatMap (fun m => m.map Prod.fst)) (f := lookupChild syms) (by
    intro s hs'
    obtain ⟨m, hm, hs'⟩ := List.mem_flatMap.1 hs'
    obtain ⟨p, hp, rfl⟩ := List.mem_map.1 hs'
    obtain ⟨i, hi⟩ := hlook m hm p hp
    exact ⟨i, hi, (lookupChild_ok hi).1⟩)
  have hkk : conjKeys syms ms = .ok ks.dedup := by simp only [conjKeys, hks, bind, Except.bind]
  obtain ⟨ps, hps, -⟩ := mapM_total (P := fun _ => True) (l := ks.dedup) (f := conjKey c syms fs ms) (by
    intro i hi
    have hi' := hk i (List.mem_dedup.1 hi)
    obtain ⟨cl, hcl, h1, h2⟩ := conjClause_total (c := c) hR (key := i) hms hlit hlook
    simp only [conjKey, hcl, bind, Except.bind]
    by_cases hne : cl = []
    · rw [if_pos hne]; exact ⟨_, rfl, trivial⟩
    · rw [if_neg hne]
      have hif : i < fs.length := by rw [hl]; exact hi'
      have hfi : fs[i]? = some fs[i] := by simp [hif]
      obtain ⟨p, hp⟩ := hf i hi' fs[i] hfi cl hne h1 h2 (by
        intro q hq
        obtain ⟨-, -, h3⟩ := conjClause_ok hms hcl
        obtain ⟨m, hm, hm', hlk⟩ := (h3 q.1).1 (List.mem_map.2 ⟨q, hq, rfl⟩)
        exact ⟨(lookupChild_ok hlk).2, m, hm, hm'⟩)
      simp only [hfi, hp]
      exact ⟨p, rfl, trivial⟩)
  simp only [conjProb, hkk, bind, Except.bind, hps]
  exact ⟨_, rfl⟩

/-- A clause of factors with the property, about variables in `V`. -/
structure LitClauseR (R : String → Ev → Prop) (V : Finset String) (s : Spe) (m : Clause String) : Prop where
  ne : m ≠ []
  inv : ClauseInv (· ∈ s.atomSyms) m
  lit : ∀ p ∈ m, R p.1 p.2
  sub : ∀ p ∈ m, p.1 ∈ s.symbols ∧ p.1 ∈ V

/-- A clause of basic events about base variables in `V`. -/
abbrev LitClause (V : Finset String) (s : Spe) (m : Clause String) : Prop := LitClauseR LitRel V s m

theorem LitClauseR.factorOK {V : Finset String} {s : Spe} {m : Clause String} (h : LitClauseR R V s m) : FactorOK (· ∈ s.atomSyms) s.symbols [m] :=
  ⟨by simp, by simpa using h.ne, by simpa using h.inv, by
    intro m' hm'; rw [List.mem_singleton.1 hm']; exact fun p hp => (h.sub p hp).1⟩

/-- At a leaf the clause is one basic event. -/
theorem LitClauseR.leaf {V : Finset String} {s : Spe} {m : Clause String} (h : LitClause V s m) (hb : s.BaseOn V) {X : String} {env : Env} (hl : s.leafEnv = some (X, env)) :
    ∃ l, m = [(X, l)] ∧ l.basic? = some (.id X) ∧ l.Valid ∧ l.NomFree s.atomSyms ∧ factorEvent c [m] = .ok l := by
  have hX : ∀ p ∈ m, p.1 = X := by
    intro p hp
    obtain ⟨h1, h2⟩ := h.sub p hp
    cases hb with
    | real hb =>
      simp only [Spe.leafEnv, Option.some.injEq, Prod.mk.injEq] at hl
      obtain ⟨rfl, rfl⟩ := hl
      exact hb _ h2 (by simpa [Spe.symbols] using h1)
    | atomic hb =>
      simp only [Spe.leafEnv, Option.some.injEq, Prod.mk.injEq] at hl
      obtain ⟨rfl, rfl⟩ := hl
      exact hb _ h2 (by simpa [Spe.symbols] using h1)
    | nominal =>
      simp only [Spe.leafEnv, Option.some.injEq, Prod.mk.injEq] at hl
      obtain ⟨rfl, rfl⟩ := hl
      simpa [Spe.symbols] using h1
    | sum => simp [Spe.leafEnv] at hl
    | prod => simp [Spe.leafEnv] at hl
  obtain ⟨l, rfl⟩ : ∃ l, m = [(X, l)] := by
    have hne := h.ne
    have hnd := h.inv.nodup
    cases m with
    | nil => exact absurd rfl hne
    | cons p m =>
      cases m with
      | nil => exact ⟨p.2, by rw [← hX p (by simp)]⟩
      | cons q m =>
        have e1 := hX p (by simp)
        have e2 := hX q (by simp)
        simp [e1, e2] at hnd
  have hlit := h.lit (X, l) (by simp)
  have hev := h.inv.ev (X, l) (by simp)
  refine ⟨l, rfl, hlit, hev.valid, (nomFree_iff l).2 hev.num, ?_⟩
  simp [factorEvent, reduceM, bind, Except.bind, pure, Except.pure]

/-- The probability of a conjunction of clauses under a product. -/
theorem prodConjs_ok (hc : c.Correct) {n : ℕ} {cs : List Spe} (hs : (Spe.prod cs).WF c L μ) {ms : List (Clause String)} (hm : ∀ m ∈ ms, ClauseInv (· ∈ (Spe.prod cs).atomSyms) m) {p : ℝ}
    (h : conjProb c (Spe.symbolsL cs) (Spe.probMemL c L n cs) ms = .ok p) : p = ((Spe.prod cs).den μ).real {ω | ∀ m ∈ ms, ∀ p ∈ m, p.2.holds ω} := by
  cases hs with
  | @prod _ h1 hne hd =>
  simp only [Spe.den]
  refine conjProb_ok (A := (· ∈ (Spe.prod cs).atomSyms)) hd (by rw [Spe.symbolsL_eq, Spe.denL_eq]; simp) ?_ ?_ ?_ h
  · intro m hm
    rw [Spe.denL_eq] at hm
    obtain ⟨s, hs, rfl⟩ := List.mem_map.1 hm
    exact (h1 s hs).prob
  · intro m' hm'
    exact (hm m' hm').ev
  · intro i hi hi' f hf cl p hne hcl hsub hp
    rw [Spe.probMemL_eq, List.getElem?_map] at hf
    have hi2 : i < cs.length := by rw [Spe.symbolsL_eq] at hi; simpa using hi
    rw [List.getElem?_eq_getElem hi2] at hf
    simp only [Option.map_some, Option.some.injEq] at hf
    subst hf
    have hsi : (Spe.symbolsL cs)[i] = (cs[i]).symbols := by simp [Spe.symbolsL_eq]
    have hdi : (Spe.denL μ cs)[i] = (cs[i]).den μ := by simp [Spe.denL_eq]
    have hmem : cs[i] ∈ cs := List.getElem_mem _
    have hFi : FactorOK (· ∈ (cs[i]).atomSyms) (cs[i]).symbols [cl] := by
      have : FactorOK (· ∈ (Spe.prod cs).atomSyms) (cs[i]).symbols [cl] :=
        ⟨by simp, by simpa using hne, by simpa using hcl, by
          intro m hm q hq
          rw [List.mem_singleton.1 hm] at hq
          rw [← hsi]; exact hsub q hq⟩
      exact this.mono (fun x hx => Spe.mem_atomSymsL.2 ⟨_, hmem, hx⟩)
    rw [probMem_ok hc _ (h1 _ hmem) [cl] hFi hp, hdi]
    congr 1
    ext ω; simp [Factor.set]

/-- Conjunctions of clauses under a product. -/
theorem prodConjs_total (hR : AddClosed c R) {V : Finset String} {n : ℕ} {cs : List Spe} (ih : ∀ s ∈ cs, ∀ m : Clause String, LitClauseR R V s m → ∃ p, s.probMem c L n [m] = .ok p)
    {ms : List (Clause String)} (hms : ∀ m ∈ ms, LitClauseR R V (.prod cs) m) : ∃ p, conjProb c (Spe.symbolsL cs) (Spe.probMemL c L n cs) ms = .ok p := by
  refine conjProb_total (A := (· ∈ (Spe.prod cs).atomSyms)) hR (by rw [Spe.symbolsL_eq, Spe.probMemL_eq]; simp) (fun m hm => (hms m hm).inv.ev) (fun m hm => (hms m hm).lit) ?_ ?_
  · intro m hm p hp
    obtain ⟨s, hs, h⟩ := Spe.mem_symbols_prod.1 ((hms m hm).sub p hp).1
    exact ⟨s.symbols, by rw [Spe.symbolsL_eq]; exact List.mem_map.2 ⟨s, hs, rfl⟩, h⟩
  · intro i hi f hf cl hne hcl hlit hsub
    rw [Spe.probMemL_eq, List.getElem?_map] at hf
    have hi2 : i < cs.length := by rw [Spe.symbolsL_eq] at hi; simpa using hi
    rw [List.getElem?_eq_getElem hi2] at hf
    simp only [Option.map_some, Option.some.injEq] at hf
    subst hf
    have hsi : (Spe.symbolsL cs)[i] = (cs[i]).symbols := by simp [Spe.symbolsL_eq]
    have hmem : cs[i] ∈ cs := List.getElem_mem _
    refine ih _ hmem cl ⟨hne, ⟨hcl.nodup, fun p hp => (hcl.ev p hp).mono (fun x hx => Spe.mem_atomSymsL.2 ⟨_, hmem, hx⟩)⟩, hlit, ?_⟩
    intro q hq
    obtain ⟨h1, m, hm, h2⟩ := hsub q hq
    obtain ⟨p, hp, he⟩ := List.mem_map.1 h2
    exact ⟨by rw [← hsi]; exact h1, by rw [← he]; exact ((hms m hm).sub p hp).2⟩

/-- Any factor, at a product. -/
theorem prodMem_total (hc : c.Correct) (hR : AddClosed c R) {V : Finset String} {n : ℕ} {cs : List Spe} (hs : (Spe.prod cs).WF c L μ) (ih : ∀ s ∈ cs, ∀ m : Clause String, LitClauseR R V s m → ∃ p, s.probMem c L n [m] = .ok p)
    {F : Factor} (hF : ∀ m ∈ F, LitClauseR R V (.prod cs) m) : ∃ p, (Spe.prod cs).probMem c L n F = .ok p := by
  have hprob : IsProbabilityMeasure ((Spe.prod cs).den μ) := hs.prob
  have hA : ∀ k : ℕ, MeasurableSet {ω : Asg | ∃ m : Clause String, F[k]? = some m ∧ ∀ p ∈ m, p.2.holds ω} := by
    intro k
    cases hk : F[k]? with
    | none => simp
    | some m =>
      have : {ω : Asg | ∃ m' : Clause String, some m = some m' ∧ ∀ p ∈ m', p.2.holds ω} = Factor.set [m] := by ext ω; simp [Factor.set]
      rw [this]; exact Factor.measurable_set
  rw [Spe.probMem]
  refine ⟨_, inclExcl_total ((Spe.prod cs).den μ) (A := fun k : ℕ => {ω : Asg | ∃ m : Clause String, F[k]? = some m ∧ ∀ p ∈ m, p.2.holds ω}) hA ?_⟩
  intro J hJ hJm
  have hpick : ∀ m ∈ pickClauses F J, m ∈ F := by
    intro m hm
    obtain ⟨j, -, hj⟩ := List.mem_filterMap.1 hm
    exact List.mem_of_getElem? hj
  have hset : interJ (fun k : ℕ => {ω : Asg | ∃ m : Clause String, F[k]? = some m ∧ ∀ p ∈ m, p.2.holds ω}) J = {ω | ∀ m ∈ pickClauses F J, ∀ p ∈ m, p.2.holds ω} := by
    ext ω
    simp only [interJ, Set.mem_setOf_eq, pickClauses, List.mem_filterMap]
    constructor
    · rintro h m ⟨j, hj, hm⟩
      obtain ⟨m', hm', hω⟩ := h j hj
      rw [hm] at hm'; cases hm'; exact hω
    · intro h j hj
      have := hJm j hj
      exact ⟨F[j], by simp [this], h _ ⟨j, hj, by simp [this]⟩⟩
  obtain ⟨p, hp⟩ := prodConjs_total hR ih (fun m hm => hF m (hpick m hm))
  rw [hp, hset, prodConjs_ok hc hs (fun m hm => (hF m (hpick m hm)).inv) hp]

/-- A single clause, at any SPE, given the leaves. -/
theorem probMem_clause_gen (hc : c.Correct) (hR : AddClosed c R) {V : Finset String} {n : ℕ} {B : Spe → Prop} (hB1 : ∀ cs ws, B (.sum cs ws) → ∀ s ∈ cs, B s) (hB2 : ∀ cs, B (.prod cs) → ∀ s ∈ cs, B s)
    (leaf : ∀ s : Spe, ∀ X env, s.leafEnv = some (X, env) → s.WF c L μ → B s → ∀ m : Clause String, LitClauseR R V s m → ∃ p, (factorEvent c [m] >>= fun e => leafProb c L n s e) = .ok p) :
    ∀ s : Spe, s.WF c L μ → B s → ∀ m : Clause String, LitClauseR R V s m → ∃ p, s.probMem c L n [m] = .ok p := by
  refine Spe.ind ?_ ?_ ?_ ?_ ?_
  · intro k X d supp cond env hs hb m hm
    rw [Spe.probMem]; exact leaf _ X env rfl hs hb m hm
  · intro X v env hs hb m hm
    rw [Spe.probMem]; exact leaf _ X env rfl hs hb m hm
  · intro X dist hs hb m hm
    rw [Spe.probMem]; exact leaf _ X _ rfl hs hb m hm
  · intro cs ws ih hs hb m hm
    rw [Spe.probMem, callAll, Spe.probMemL_eq, List.mapM_map]
    cases hs with
    | @sum _ _ S h1 hne hl hw hsum hS =>
    obtain ⟨ps, hps, -⟩ := mapM_total (P := fun _ => True) (l := cs) (f := fun s => s.probMem c L n [m]) (by
      intro s hs
      obtain ⟨p, hp⟩ := ih s hs (h1 s hs) (hB1 _ _ hb s hs) m ⟨hm.ne, ⟨hm.inv.nodup, fun p hp => (hm.inv.ev p hp).mono (fun x hx => Spe.mem_atomSymsL.2 ⟨s, hs, hx⟩)⟩, hm.lit, by
        intro p hp
        have := hm.sub p hp
        rw [Spe.symbols_sum hne hS] at this
        rw [hS s hs]; exact this⟩
      exact ⟨p, hp, trivial⟩)
    exact ⟨mixSum ws ps, by simp only [bind, Except.bind]; rw [show (List.mapM ((fun f => f [m]) ∘ Spe.probMem c L n) cs) = .ok ps from hps]⟩
  · intro cs ih hs hb m hm
    have hs' := hs
    cases hs' with
    | @prod _ h1 hne hd =>
    exact prodMem_total hc hR hs (fun s hs' m hm => ih s hs' (h1 s hs') (hB2 _ hb s hs') m hm) (by simpa using hm)

/-- A single clause about base variables, at any SPE. -/
theorem probMem_clause_total (hc : c.Correct) {V : Finset String} {n : ℕ} : ∀ s : Spe, s.WF c L μ → s.BaseOn V → ∀ m : Clause String, LitClause V s m → ∃ p, s.probMem c L n [m] = .ok p := by
  refine probMem_clause_gen hc litRel_closed (fun cs ws h => by cases h with | sum h => exact h) (fun cs h => by cases h with | prod h => exact h) ?_
  intro s X env hl hs hb m hm
  obtain ⟨l, -, h1, h2, h3, h4⟩ := hm.leaf (c := c) hb hl
  obtain ⟨p, hp⟩ := leafProb_total hs hl h2 h1 h3
  exact ⟨p, by simp only [h4, bind, Except.bind, hp n]⟩

/-- Any factor, at an SPE whose paths of sums end in products. -/
theorem probMem_wide_total (hc : c.Correct) {V : Finset String} {n : ℕ} {s : Spe} (hw : s.Wide) : s.WF c L μ → s.BaseOn V → ∀ F : Factor, (∀ m ∈ F, LitClause V s m) → ∃ p, s.probMem c L n F = .ok p := by
  revert hw
  refine Spe.ind (Q := fun s => s.Wide → s.WF c L μ → s.BaseOn V → ∀ F : Factor, (∀ m ∈ F, LitClause V s m) → ∃ p, s.probMem c L n F = .ok p) ?_ ?_ ?_ ?_ ?_ s
  · intro k X d supp cond env hw; cases hw
  · intro X v env hw; cases hw
  · intro X dist hw; cases hw
  · intro cs ws ih hwd hs hb F hF
    rw [Spe.probMem, callAll, Spe.probMemL_eq, List.mapM_map]
    cases hs with
    | @sum _ _ S h1 hne hl hw hsum hS =>
    cases hb with
    | sum hb =>
    cases hwd with
    | sum hwd =>
    obtain ⟨ps, hps, -⟩ := mapM_total (P := fun _ => True) (l := cs) (f := fun s => s.probMem c L n F) (by
      intro s hs
      obtain ⟨p, hp⟩ := ih s hs (hwd s hs) (h1 s hs) (hb s hs) F (by
        intro m hm'
        have hm := hF m hm'
        exact ⟨hm.ne, ⟨hm.inv.nodup, fun p hp => (hm.inv.ev p hp).mono (fun x hx => Spe.mem_atomSymsL.2 ⟨s, hs, hx⟩)⟩, hm.lit, by
          intro p hp
          have := hm.sub p hp
          rw [Spe.symbols_sum hne hS] at this
          rw [hS s hs]; exact this⟩)
      exact ⟨p, hp, trivial⟩)
    exact ⟨mixSum ws ps, by simp only [bind, Except.bind]; rw [show (List.mapM ((fun f => f F) ∘ Spe.probMem c L n) cs) = .ok ps from hps]⟩
  · intro cs ih hwd hs hb F hF
    have hs' := hs
    cases hs' with
    | @prod _ h1 hne hd =>
    cases hb with
    | prod hb => exact prodMem_total hc litRel_closed hs (fun s hs' m hm => probMem_clause_total hc s (h1 s hs') (hb s hs') m hm) hF

end Sppl
