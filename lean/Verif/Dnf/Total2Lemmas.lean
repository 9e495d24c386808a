import Verif.Dnf.TotalLemmas

set_option linter.all false

/-!
# `dnf_factor` and `dnf_normalize` on events about plain variables never raise (helper lemmas)
-/

namespace Sppl
open Classical

variable {Q : String → EReal → Prop} {c : Ctx}

/-! ## `dnf_factor` -/

theorem factorLit_total {d e : Ev} {k : String} (h : e.basic? = some (.id k)) (hd : e.symbols ⊆ d.symbols) : factorLit (selfLookup d) e = .ok (k, e) := by
  have hs : e.symbols = {k} := by rw [symbols_of_basic h]; rfl
  have h1 : e.symbol1 = .ok k := by
    unfold Ev.symbol1
    rw [hs]; simp
  have h2 : selfLookup d k = some k := by
    unfold selfLookup
    rw [if_pos (hd (by simp [hs]))]
  unfold factorLit
  simp only [h1, h2, bind, Except.bind]

theorem addAnd_total {k : String} {ev : Ev} (hev : ev.Valid) : ∀ {m : Clause String}, (∀ p ∈ m, p.2.Valid) → ∃ m', Clause.addAnd c k ev m = .ok m' ∧ ∀ p ∈ m', p.2.Valid := by
  intro m
  induction m with
  | nil => intro _; exact ⟨_, rfl, by simpa using hev⟩
  | cons p m ih =>
    intro hm
    obtain ⟨k', e⟩ := p
    simp only [Clause.addAnd]
    split
    · obtain ⟨g, hg⟩ := Ev.land_total c (hm (k', e) (by simp)) hev
      simp only [hg, bind, Except.bind]
      refine ⟨_, rfl, fun p hp => ?_⟩
      rcases List.mem_cons.1 hp with rfl | hp
      · exact (Ev.land_spec (hm (k', e) (by simp)) hev hg).1
      · exact hm p (by simp [hp])
    · obtain ⟨m', h1, h2⟩ := ih (fun p hp => hm p (by simp [hp]))
      simp only [h1, bind, Except.bind]
      refine ⟨_, rfl, fun p hp => ?_⟩
      rcases List.mem_cons.1 hp with rfl | hp
      · exact hm (k', e) (by simp)
      · exact h2 p hp

theorem factorLoop_total {d : Ev} : ∀ {rest : List Ev} {m : Clause String}, (∀ p ∈ m, p.2.Valid) → (∀ e ∈ rest, e.Valid ∧ VarLit e ∧ e.symbols ⊆ d.symbols) →
    ∃ m', factorLoop c (selfLookup d) m rest = .ok m' := by
  intro rest
  induction rest with
  | nil => intro m _ _; exact ⟨m, rfl⟩
  | cons e rest ih =>
    intro m hm hr
    obtain ⟨h1, ⟨k, hk⟩, h3⟩ := hr e (by simp)
    obtain ⟨m1, hm1, hm2⟩ := addAnd_total (c := c) (k := k) h1 hm
    obtain ⟨m', hm'⟩ := ih hm2 (fun e he => hr e (by simp [he]))
    refine ⟨m', ?_⟩
    simp only [factorLoop, List.foldlM_cons, factorLit_total hk h3, bind, Except.bind, hm1]
    simpa [factorLoop, bind, Except.bind] using hm'

theorem factorClause_total {d e : Ev} (hcl : e.IsClause) (hv : e.Valid) (ha : e.All VarLit) (hs : e.symbols ⊆ d.symbols) :
    ∃ m, factorClause c (selfLookup d) e = .ok m := by
  cases e with
  | or => exact False.elim hcl
  | and es =>
    simp only [factorClause]
    rw [if_pos (by
      simp only [List.all_eq_true]
      intro e he
      obtain ⟨t, ht⟩ := Ev.isLit_iff.1 (hcl.2 e he)
      simp [ht])]
    refine factorLoop_total (by simp) (fun e he => ?_)
    obtain ⟨t, ht⟩ := Ev.isLit_iff.1 (hcl.2 e he)
    refine ⟨?_, (Ev.all_lit ht).1 (Ev.all_and.1 ha e he), ?_⟩
    · cases hv with
      | and _ h => exact h e he
    · exact Ev.symbols_all.2 (Ev.all_and.1 (Ev.symbols_all.1 hs) e he)
  | ivl t i =>
    obtain ⟨k, hk⟩ := (Ev.all_lit rfl).1 ha
    simp only [factorClause, factorLit_total hk hs, bind, Except.bind]; exact ⟨_, rfl⟩
  | fin t i =>
    obtain ⟨k, hk⟩ := (Ev.all_lit rfl).1 ha
    simp only [factorClause, factorLit_total hk hs, bind, Except.bind]; exact ⟨_, rfl⟩
  | nom t i =>
    obtain ⟨k, hk⟩ := (Ev.all_lit rfl).1 ha
    simp only [factorClause, factorLit_total hk hs, bind, Except.bind]; exact ⟨_, rfl⟩

/-- A factored clause: one basic event for each variable. -/
structure PlainClause (Q : String → EReal → Prop) (D : Finset String) (m : Clause String) : Prop where
  ne : m ≠ []
  nodup : (m.map Prod.fst).Nodup
  lit : ∀ p ∈ m, p.2.basic? = some (.id p.1)
  plain : ∀ p ∈ m, PlainLit Q p.2
  syms : ∀ p ∈ m, p.1 ∈ D

theorem PlainClause.valid {D : Finset String} {m : Clause String} (h : PlainClause Q D m) {p : String × Ev} (hp : p ∈ m) : p.2.Valid := (h.plain p hp).1

theorem plain_vars {e : Ev} (h : e.All (PlainLit Q)) : e.All VarLit := h.mono (fun _ _ _ h => h.var)

theorem factorClause_plain {d e : Ev} (hv : e.Valid) (ha : e.All (PlainLit Q)) {m : Clause String} (h : factorClause c (selfLookup d) e = .ok m) :
    PlainClause Q d.symbols m ∧ ∀ ω, (∀ p ∈ m, p.2.holds ω) ↔ e.holds ω := by
  obtain ⟨h1, h2, h3⟩ := factorClause_ok plainLit_and hv ha h
  have hl := factorClause_lit hv (plain_vars ha) h
  refine ⟨⟨h2, h1.nodup, hl, fun p hp => (Ev.all_lit (hl p hp)).1 (h1.allP p hp), fun p hp => (h1.symbols hp).2⟩, fun ω => ?_⟩
  rw [h1.holds ω]
  cases e with
  | and es => simp [Ev.conjuncts, Ev.holds_and]
  | _ => simp [Ev.conjuncts]

theorem dnfFactor1_total {d : Ev} (hd : d.IsDnf) (hv : d.Valid) (ha : d.All (PlainLit Q)) :
    ∃ fs, dnfFactor1 c d = .ok fs ∧ List.Forall₂ (fun e m => factorClause c (selfLookup d) e = .ok m ∧ PlainClause Q d.symbols m ∧ ∀ ω, (∀ p ∈ m, p.2.holds ω) ↔ e.holds ω) d.disjuncts fs := by
  have one : ∀ e, e.IsClause → e.Valid → e.All (PlainLit Q) → e.symbols ⊆ d.symbols → ∃ m, factorClause c (selfLookup d) e = .ok m ∧
      (factorClause c (selfLookup d) e = .ok m ∧ PlainClause Q d.symbols m ∧ ∀ ω, (∀ p ∈ m, p.2.holds ω) ↔ e.holds ω) := by
    intro e h1 h2 h3 h4
    obtain ⟨m, hm⟩ := factorClause_total (c := c) (d := d) h1 h2 (plain_vars h3) h4
    exact ⟨m, hm, hm, factorClause_plain h2 h3 hm⟩
  unfold dnfFactor1 dnfFactor
  cases d with
  | or es =>
    simp only
    rw [if_pos (by
      simp only [List.all_eq_true]
      intro e he
      have := hd.2 e he
      cases e <;> first | rfl | exact False.elim this)]
    simp only [Ev.disjuncts]
    have hves : ∀ e ∈ es, e.Valid := by cases hv with | or _ h => exact h
    have hall : ∀ e ∈ es, ∃ m, factorClause c (selfLookup (.or es)) e = .ok m ∧
        (factorClause c (selfLookup (.or es)) e = .ok m ∧ PlainClause Q (Ev.or es).symbols m ∧ ∀ ω, (∀ p ∈ m, p.2.holds ω) ↔ e.holds ω) := by
      intro e he
      refine one e (hd.2 e he) (hves e he) (Ev.all_or.1 ha e he) ?_
      exact Ev.symbols_all.2 (Ev.all_or.1 (Ev.symbols_all.1 (le_refl _)) e he)
    obtain ⟨fs, hfs, -⟩ := mapM_total (P := fun _ => True) (l := es) (fun e he => by obtain ⟨m, hm, -⟩ := hall e he; exact ⟨m, hm, trivial⟩)
    refine ⟨fs, hfs, ?_⟩
    have hF := mapM_ok hfs
    clear hfs one
    have key : ∀ {l : List Ev} {fs : List (Clause String)}, (∀ e ∈ l, e ∈ es) → List.Forall₂ (fun e m => factorClause c (selfLookup (.or es)) e = .ok m) l fs →
        List.Forall₂ (fun e m => factorClause c (selfLookup (.or es)) e = .ok m ∧ PlainClause Q (Ev.or es).symbols m ∧ ∀ ω, (∀ p ∈ m, p.2.holds ω) ↔ e.holds ω) l fs := by
      intro l fs hl h
      induction h with
      | nil => exact .nil
      | @cons e m l fs h1 h2 ih =>
        obtain ⟨m', h3, h4⟩ := hall e (hl e (by simp))
        rw [h1] at h3; cases h3
        exact .cons h4 (ih (fun e he => hl e (by simp [he])))
    exact key (fun e he => he) hF
  | _ =>
    obtain ⟨m, hm, h2⟩ := one _ (by exact hd) hv ha (le_refl _)
    simp only [hm, bind, Except.bind]
    exact ⟨_, rfl, .cons h2 .nil⟩

/-! ## Solving -/

theorem solveClause_plain {D : Finset String} {m : Clause String} (hm : PlainClause Q D m) (n : ℕ) :
    solveClause c n m = .ok (m.map (fun p => (p.1, p.2.values))) := by
  have : ∀ m : Clause String, (∀ p ∈ m, p.2.basic? = some (.id p.1)) → solveClause c n m = .ok (m.map (fun p => (p.1, p.2.values))) := by
    intro m
    induction m with
    | nil => intro _; rfl
    | cons p m ih =>
      intro h
      have h1 := ih (fun p hp => h p (by simp [hp]))
      unfold solveClause at h1 ⊢
      rw [List.mapM_cons, solve_var (h p (by simp)), h1]
      rfl
  exact this m hm.lit

theorem solveClauses_plain {D : Finset String} (n : ℕ) : ∀ {fs : List (Clause String)}, (∀ m ∈ fs, PlainClause Q D m) →
    fs.mapM (solveClause c n) = .ok (fs.map (fun m => m.map (fun p => (p.1, p.2.values)))) := by
  intro fs
  induction fs with
  | nil => intro _; rfl
  | cons m fs ih =>
    intro h
    rw [List.mapM_cons, solveClause_plain (h m (by simp)), ih (fun m hm => h m (by simp [hm]))]
    rfl

/-! ## `dnf_normalize` -/

/-- A basic event about a variable with a non-empty set. -/
def FullLit (Q : String → EReal → Prop) (l : Ev) : Prop := PlainLit Q l ∧ l.values ≠ .empty

theorem fullLit_or : ∀ e f g : Ev, FullLit Q e → FullLit Q f → Ev.simplify (SSet.or c.σ) e f = .ok (some g) → FullLit Q g := by
  rintro e f g ⟨he, he'⟩ ⟨hf, hf'⟩ h
  have hg := plainLit_or e f g he hf h
  refine ⟨hg, fun hemp => ?_⟩
  obtain ⟨t, r, a1, a2, a3, a4, a5⟩ := Ev.simplify_some h
  have := SSet.or_spec c.σ _ _ ((Ev.valid_basic a1).1 he.1) (Ev.values_disj a1) ((Ev.valid_basic a2).1 hf.1) (Ev.values_disj a2) a3
  obtain ⟨v, hv⟩ := set_nonempty ((Ev.valid_basic a1).1 he.1) (Ev.values_not_un e) (by cases hS : e.values <;> simp [SSet.isEmpty]; exact he' hS)
  have hp : v.Proper := by
    obtain ⟨h1, k, hk, hw⟩ := he
    exact within_noInf ((Ev.valid_basic a1).1 h1) (Ev.values_not_un e) hw v hv
  have := this.sup v hp (Or.inl hv)
  rw [← a5, hemp] at this
  simp at this

/-- The basic event `symbol << S` of a variable with a set that is not a union. -/
theorem inSet_lit {k : String} {l : Ev} (h : l.basic? = some (.id k)) (he : l.values ≠ .empty) : (Tr.id k).inSet c l.values = .ok l := by
  cases l with
  | or => simp [Ev.basic?] at h
  | and => simp [Ev.basic?] at h
  | ivl t i => simp [Ev.basic?] at h; subst h; rfl
  | fin t v =>
    simp [Ev.basic?] at h; subst h
    cases v with
    | none => exact absurd rfl he
    | some s => rfl
  | nom t v =>
    simp [Ev.basic?] at h; subst h
    cases v with
    | none => exact absurd rfl he
    | some s => rfl

/-- A solved clause without empty sets. -/
structure FullClause (Q : String → EReal → Prop) (m : Clause String) : Prop where
  ne : m ≠ []
  nodup : (m.map Prod.fst).Nodup
  lit : ∀ p ∈ m, p.2.basic? = some (.id p.1)
  full : ∀ p ∈ m, FullLit Q p.2

theorem FullClause.solConj {m : Clause String} (h : FullClause Q m) : ∃ g, solConj c (m.map (fun p => (p.1, p.2.values))) = .ok g ∧ g.Valid ∧ g.IsClause ∧
    ∀ ω, g.holds ω ↔ ∀ p ∈ m, p.2.holds ω := by
  have hm : (m.map (fun p => (p.1, p.2.values))).mapM (fun p => (Tr.id p.1).inSet c p.2) = .ok (m.map Prod.snd) := by
    have : ∀ m : Clause String, (∀ p ∈ m, p.2.basic? = some (.id p.1) ∧ p.2.values ≠ .empty) →
        (m.map (fun p => (p.1, p.2.values))).mapM (fun p => (Tr.id p.1).inSet c p.2) = .ok (m.map Prod.snd) := by
      intro m
      induction m with
      | nil => intro _; rfl
      | cons p m ih =>
        intro h
        rw [List.map_cons, List.mapM_cons, inSet_lit (h p (by simp)).1 (h p (by simp)).2, ih (fun p hp => h p (by simp [hp]))]
        rfl
    exact this m (fun p hp => ⟨h.lit p hp, (h.full p hp).2⟩)
  have hv : ∀ e ∈ m.map Prod.snd, e.Valid := by
    intro e he
    obtain ⟨p, hp, rfl⟩ := List.mem_map.1 he
    exact (h.full p hp).1.1
  obtain ⟨g, hg, hgv⟩ := reduceM_land_total c (l := m.map Prod.snd) (by simpa using h.ne) hv
  refine ⟨g, ?_, hgv, ?_, fun ω => ?_⟩
  · unfold Sppl.solConj
    simp only [hm, bind, Except.bind, hg]
  · refine land_lits_clause (fun e he => ?_) hg
    obtain ⟨p, hp, rfl⟩ := List.mem_map.1 he
    exact (Ev.isLit_iff.2 ⟨_, h.lit p hp⟩).clause
  · rw [(reduce_land hv hg).2 ω]
    simp only [List.mem_map]
    exact ⟨fun h p hp => h p.2 ⟨p, hp, rfl⟩, by rintro h e ⟨p, hp, rfl⟩; exact h p hp⟩

/-- The variables of a clause can be chosen independently. -/
theorem FullClause.sat {m : Clause String} (h : FullClause Q m) : ∃ ω : Asg, ∀ p ∈ m, p.2.holds ω := by
  have hex : ∀ p ∈ m, ∃ w : Val ℝ, w.lift ∈ p.2.values.den := by
    intro p hp
    obtain ⟨⟨hv, k, hk, hw⟩, hne⟩ := h.full p hp
    have hwf := (Ev.valid_basic hk).1 hv
    obtain ⟨v, hv⟩ := set_nonempty hwf (Ev.values_not_un p.2) (by cases hS : p.2.values <;> simp [SSet.isEmpty]; exact hne hS)
    obtain ⟨w, hw⟩ := proper_lift (within_noInf hwf (Ev.values_not_un p.2) hw v hv)
    exact ⟨w, hw ▸ hv⟩
  choose w hw using hex
  let ω : Asg := fun s => if h : ∃ p ∈ m, p.1 = s then some (w h.choose h.choose_spec.1) else none
  refine ⟨ω, fun p hp => ?_⟩
  have hex : ∃ p' ∈ m, p'.1 = p.1 := ⟨p, hp, rfl⟩
  have e : hex.choose = p := List.inj_on_of_nodup_map h.nodup hex.choose_spec.1 hp hex.choose_spec.2
  have hω : ω p.1 = some (w p hp) := by
    simp only [ω, dif_pos hex]
    congr 2
  exact (Ev.holds_basic (h.lit p hp) ω).2 ⟨_, hω, hw p hp⟩

/-- Every clause of the event has a solution. -/
def ClausesSat (e : Ev) : Prop := ∀ cl ∈ e.toDnfList, ∃ ω : Asg, ∀ l ∈ cl, l.holds ω

theorem clause_toDnfList {e : Ev} (hc : e.IsClause) : e.toDnfList = [e.conjuncts] := by
  cases e with
  | or => exact False.elim hc
  | and es =>
    rw [Ev.toDnfList, Ev.toDnfListL_eq]
    have : ∀ l : List Ev, (∀ x ∈ l, x.IsLit) → cross (l.map Ev.toDnfList) = [l.map (fun x => [x])] := by
      intro l
      induction l with
      | nil => simp [cross]
      | cons x l ih =>
        intro hl
        obtain ⟨t, ht⟩ := Ev.isLit_iff.1 (hl x (by simp))
        simp [cross, ih (fun x hx => hl x (by simp [hx])), Ev.toDnfList_lit ht]
    rw [this es hc.2]
    have h2 : ∀ l : List Ev, (l.map (fun x => [x])).flatten = l := by
      intro l; induction l <;> simp_all
    simp [h2, Ev.conjuncts]
  | _ => simp [Ev.toDnfList, Ev.conjuncts]

theorem holds_conjuncts (e : Ev) (ω : Asg) : e.holds ω ↔ ∀ l ∈ e.conjuncts, l.holds ω := by
  cases e with
  | and es => simp [Ev.conjuncts, Ev.holds_and]
  | _ => simp [Ev.conjuncts]

theorem clausesSat_clause {e : Ev} (hc : e.IsClause) {ω : Asg} (h : e.holds ω) : ClausesSat e := by
  intro cl hcl
  rw [clause_toDnfList hc] at hcl
  simp at hcl; subst hcl
  exact ⟨ω, (holds_conjuncts e ω).1 h⟩

theorem clausesSat_lor {e f g : Ev} (hev : e.Valid) (hfv : f.Valid) (hl : ∀ t, e.basic? = some t → ∃ ω, e.holds ω) (he : ClausesSat e) (hf : ClausesSat f) (h : e.lor c f = .ok g) : ClausesSat g := by
  have hg := (Ev.lor_spec hev hfv h).2
  have hdj : ∀ {e : Ev}, ClausesSat e → ∀ x ∈ e.disjuncts, ClausesSat x := by
    intro e he x hx
    cases e with
    | or es =>
      intro cl hcl
      refine he cl ?_
      rw [Ev.toDnfList, Ev.toDnfListL_eq]
      exact List.mem_flatten.2 ⟨_, List.mem_map_of_mem hx, hcl⟩
    | _ => simp [Ev.disjuncts] at hx; subst hx; exact he
  unfold Ev.lor at h
  simp only [bind, Except.bind] at h
  split at h; · cases h
  rename_i o ho
  cases o with
  | none =>
    cases h
    intro cl hcl
    simp only [Option.getD_none] at hcl
    rw [Ev.toDnfList, Ev.toDnfListL_eq] at hcl
    obtain ⟨L, hL, hcl⟩ := List.mem_flatten.1 hcl
    obtain ⟨x, hx, rfl⟩ := List.mem_map.1 hL
    rcases List.mem_append.1 hx with hx | hx
    · exact hdj he x hx cl hcl
    · exact hdj hf x hx cl hcl
  | some g' =>
    cases h
    simp only [Option.getD_some] at hg ⊢
    obtain ⟨t, r, a1, a2, a3, a4, a5⟩ := Ev.simplify_some ho
    obtain ⟨ω, hω⟩ := hl t a1
    exact clausesSat_clause (Ev.isLit_iff.2 ⟨t, a4⟩).clause ((hg ω).2 (Or.inl hω))

theorem clausesSat_toDnf {e r : Ev} (hv : e.Valid) (he : ClausesSat e) (h : e.toDnf = .ok r) : ∀ x ∈ r.disjuncts, ∃ ω, x.holds ω := by
  unfold Ev.toDnf at h
  simp only [bind, Except.bind] at h
  split at h; · cases h
  rename_i gs hgs
  obtain ⟨h1, h2, h3⟩ := Ev.toDnfList_spec (P := fun _ => True) e hv
  have hall : ∀ x ∈ gs, (∃ ω, x.holds ω) ∧ x.IsClause := by
    intro x hx
    obtain ⟨cl, hcl, hx'⟩ := forall₂_mem_right (mapM_ok hgs) hx
    obtain ⟨ω, hω⟩ := he cl hcl
    obtain ⟨g, hg1, hg2, -, hg3, -⟩ := simplifyEvent_and (h2 cl hcl).1 (fun l hl => ⟨((h2 cl hcl).2 l hl).1, ((h2 cl hcl).2 l hl).2.1⟩)
    rw [hx'] at hg1; cases hg1
    exact ⟨⟨ω, (hg3 ω).2 hω⟩, hg2⟩
  match gs, hall with
  | [], _ => simp [simplifyEvent] at h
  | [x], hall =>
    simp [simplifyEvent] at h; subst h
    obtain ⟨h4, h5⟩ := hall x (by simp)
    intro y hy
    cases x with
    | or => exact False.elim h5
    | _ => simp [Ev.disjuncts] at hy; subst hy; exact h4
  | x :: y :: l, hall =>
    simp [simplifyEvent] at h; subst h
    intro z hz
    exact (hall z (by simpa [Ev.disjuncts] using hz)).1

/-- What `dnf_normalize` returns on events about plain variables (past the shortcut). -/
structure NormTotal (Q : String → EReal → Prop) (r : Ev) : Prop where
  dnf : r.IsDnf
  valid : r.Valid
  full : r.All (FullLit Q)
  sat : ∀ x ∈ r.disjuncts, ∃ ω, x.holds ω

theorem normalizeBody_total (hc : c.Correct) {e : Ev} (hv : e.Valid) (ha : e.All (PlainLit Q)) :
    ∃ o, (∀ n, normalizeBody c n e = .ok o) ∧ ∀ r, o = some r → NormTotal Q r := by
  obtain ⟨d, hd1, hd2, hd3, hd4, hd5⟩ := Ev.toDnf_spec hv
  have hda := hd5 _ ha
  obtain ⟨fs, hfs, hF⟩ := dnfFactor1_total (c := c) hd2 hd3 hda
  have hpc : ∀ m ∈ fs, PlainClause Q d.symbols m := fun m hm => by obtain ⟨e, -, h⟩ := forall₂_mem_right hF hm; exact h.2.1
  have hsols : ∀ n, fs.mapM (solveClause c n) = .ok (fs.map (fun m => m.map (fun p => (p.1, p.2.values)))) := fun n => solveClauses_plain n hpc
  unfold normalizeBody
  simp only [hd1, hfs, hsols, bind, Except.bind]
  set good := (fs.map (fun m => m.map (fun p => (p.1, p.2.values)))).filter (fun s => s.all (fun p => !p.2.isEmpty)) with hgood
  by_cases hg : good = []
  · rw [if_pos hg]
    exact ⟨none, fun _ => rfl, by simp⟩
  · rw [if_neg hg]
    have hfull : ∀ s ∈ dedupSols good, ∃ m, FullClause Q m ∧ s = m.map (fun p => (p.1, p.2.values)) := by
      intro s hs
      have hs' := mem_dedupSols hs
      rw [hgood] at hs'
      obtain ⟨h1, h2⟩ := List.mem_filter.1 hs'
      obtain ⟨m, hm, rfl⟩ := List.mem_map.1 h1
      refine ⟨m, ⟨(hpc m hm).ne, (hpc m hm).nodup, (hpc m hm).lit, fun p hp => ⟨(hpc m hm).plain p hp, ?_⟩⟩, rfl⟩
      simp only [List.all_eq_true] at h2
      have := h2 (p.1, p.2.values) (List.mem_map_of_mem (f := fun p : String × Ev => (p.1, p.2.values)) hp)
      intro he
      rw [he] at this
      simp [SSet.isEmpty] at this
    have hne : dedupSols good ≠ [] := by
      obtain ⟨x, hx⟩ := List.exists_mem_of_ne_nil _ hg
      obtain ⟨y, hy, -⟩ := dedupSols_cover (fun _ => none) hx
      exact List.ne_nil_of_mem hy
    obtain ⟨conjs, hconjs, hlen, hcj⟩ := mapM_total (f := solConj c) (P := fun g => g.Valid ∧ g.IsClause ∧ ∃ ω, g.holds ω) (l := dedupSols good) (by
      intro s hs
      obtain ⟨m, hm, rfl⟩ := hfull s hs
      obtain ⟨g, hg1, hg2, hg3, hg4⟩ := hm.solConj (c := c)
      obtain ⟨ω, hω⟩ := hm.sat
      exact ⟨g, hg1, hg2, hg3, ω, (hg4 ω).2 hω⟩)
    simp only [hconjs]
    obtain ⟨disj, hdisj, hdv⟩ := reduceM_lor_total c (l := conjs) (by
      intro e; rw [e] at hlen; exact hne (List.length_eq_zero_iff.1 hlen.symm)) (fun e he => (hcj e he).1)
    simp only [hdisj]
    obtain ⟨r, hr1, hr2, hr3, hr4, hr5⟩ := Ev.toDnf_spec hdv
    simp only [hr1]
    refine ⟨some r, fun _ => rfl, ?_⟩
    rintro r' h; cases h
    have hsat : ClausesSat disj := by
      have := reduceM_ind (Q := fun e => e.Valid ∧ ClausesSat e ∧ ∃ ω, e.holds ω) (f := Ev.lor c) (by
        rintro x y z ⟨x1, x2, ω, x3⟩ ⟨y1, y2, -⟩ hz
        have := Ev.lor_spec x1 y1 hz
        exact ⟨this.1, clausesSat_lor x1 y1 (fun _ _ => ⟨ω, x3⟩) x2 y2 hz, ω, (this.2 ω).2 (Or.inl x3)⟩) (l := conjs) (by
        intro x hx
        obtain ⟨h1, h2, ω, h3⟩ := hcj x hx
        exact ⟨h1, clausesSat_clause h2 h3, ω, h3⟩) hdisj
      exact this.2.1
    refine ⟨hr2, hr3, hr5 _ ?_, clausesSat_toDnf hdv hsat hr1⟩
    refine reduceM_ind (Q := fun e => e.All (FullLit Q)) (f := Ev.lor c) (fun x y z hx hy hz => Ev.lor_all fullLit_or hx hy hz) (l := conjs) ?_ hdisj
    intro x hx
    obtain ⟨s, hs, hsx⟩ := forall₂_mem_right (mapM_ok hconjs) hx
    obtain ⟨m, hm, rfl⟩ := hfull s hs
    refine (solConj_all (P := FullLit Q) fullLit_or ?_ ?_ ?_ ?_ hsx).mono (fun _ _ _ h => h.1)
    · intro q hq
      obtain ⟨p, hp, rfl⟩ := List.mem_map.1 hq
      exact (Ev.valid_basic (hm.lit p hp)).1 (hm.full p hp).1.1
    · rw [List.map_map]; exact hm.nodup
    · intro q hq
      obtain ⟨p, hp, rfl⟩ := List.mem_map.1 hq
      exact (hm.full p hp).2
    · intro q hq pc hpc l hl1 hl2
      obtain ⟨p, hp, rfl⟩ := List.mem_map.1 hq
      have hpv : p.2.values = .pc pc := by
        have := Ev.values_not_un p.2
        simp only at hpc
        cases hS : p.2.values with
        | empty => rw [hS] at hpc; simp [SSet.pieces] at hpc
        | pc p' => rw [hS] at hpc; simp [SSet.pieces] at hpc; subst hpc; rfl
        | un u => exact absurd hS (this u)
      obtain ⟨⟨h1, k, hk, hw⟩, h2⟩ := hm.full p hp
      rw [hm.lit p hp] at hk
      have hkk : p.1 = k := by injection hk with h; injection h
      subst hkk
      refine ⟨⟨(Ev.valid_basic hl1).2 ?_, p.1, hl1, ?_⟩, ?_⟩
      · rw [hl2, ← hpv]; exact (Ev.valid_basic (hm.lit p hp)).1 h1
      · rw [hl2, ← hpv]; exact hw
      · rw [hl2]; simp

/-- `dnf_normalize` on events about plain variables returns, and the result does not depend on the bound `n`. -/
theorem dnfNormalize_total (hc : c.Correct) {e : Ev} (hv : e.Valid) (ha : e.All (PlainLit Q)) :
    ∃ o, (∀ n, dnfNormalize c n e = .ok o) ∧ ∀ r, o = some r → (NormTotal Q r ∨ (r = e ∧ r.isIdLit = true)) := by
  unfold dnfNormalize
  by_cases h : e.isIdLit = true
  · simp only [h, if_true]
    exact ⟨some e, fun _ => rfl, by rintro r h'; cases h'; exact Or.inr ⟨rfl, h⟩⟩
  · simp only [h, if_false]
    obtain ⟨o, h1, h2⟩ := normalizeBody_total hc hv ha
    exact ⟨o, h1, fun r hr => Or.inl (h2 r hr)⟩

end Sppl
